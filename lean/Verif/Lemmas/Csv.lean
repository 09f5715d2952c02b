import Verif.Spec.Csv
/-
Lemmas about the reader of trace files and the main loop.
-/
namespace R2U2

namespace Flat

/-- What running the engine leaves alone. -/
structure Keeps (F F' : Flat) : Prop where
  atoms : F'.atoms = F.atoms
  lim : F'.lim = F.lim
  time : F'.time = F.time

theorem Keeps.refl (F : Flat) : Keeps F F := ⟨rfl, rfl, rfl⟩
theorem Keeps.trans {F G H : Flat} (a : Keeps F G) (b : Keeps G H) : Keeps F H :=
  ⟨b.atoms.trans a.atoms, b.lim.trans a.lim, b.time.trans a.time⟩

theorem keeps_setBlock (F : Flat) (q : Nat) (b : Block) : Keeps F (F.setBlock q b) := ⟨rfl, rfl, rfl⟩

theorem keeps_store {F F' : Flat} {a w : Nat} (h : F.store a w = some F') : Keeps F F' := by
  unfold store at h
  split at h
  · cases h; exact ⟨rfl, rfl, rfl⟩
  · cases h

theorem keeps_push {F F' : Flat} {q w : Nat} (h : F.push q w = some F') : Keeps F F' := by
  simp only [push, Option.bind_eq_some_iff, Option.map_eq_some_iff] at h
  obtain ⟨_, _, _, _, _, _, _, h1, rfl⟩ := h
  exact (keeps_store h1).trans (keeps_setBlock _ _ _)

theorem keeps_pushed {F F' : Flat} {q : Nat} {v : Option Verdict} (h : F.pushed q v = some F') : Keeps F F' := by
  cases v with
  | none => cases h; exact .refl _
  | some v => exact keeps_push h

theorem keeps_operand {F : Flat} {i : TlRec} {k : Bool} {x : Flat × Option Nat} (h : F.operand i k = some x) : Keeps F x.1 := by
  unfold operand at h
  split at h
  · obtain ⟨_, _, rfl⟩ := Option.map_eq_some_iff.1 h; exact .refl _
  · by_cases h1 : F.progress = .first
    · rw [if_pos h1] at h
      split at h
      · split at h
        · cases h; exact .refl _
        · cases h
      · split at h
        · cases h; exact .refl _
        · cases h
    · rw [if_neg h1] at h; cases h; exact .refl _
  · simp only [Option.bind_eq_some_iff, Option.map_eq_some_iff] at h
    obtain ⟨_, _, _, _, _, _, rfl⟩ := h
    exact keeps_setBlock _ _ _
  · cases h; exact .refl _

theorem keeps_writeBack {F F' : Flat} {i : TlRec} {e : Effect} (h : F.writeBack i e = some F') : Keeps F F' := by
  simp only [writeBack, Option.bind_eq_some_iff] at h
  obtain ⟨b, _, h⟩ := h
  split at h
  · obtain ⟨F2, h1, h2⟩ := Option.bind_eq_some_iff.1 h
    exact ((keeps_setBlock _ _ _).trans (keeps_store h1)).trans (keeps_store h2)
  · cases h; exact keeps_setBlock _ _ _

theorem keeps_apply {F F' : Flat} {i : TlRec} {e : Effect} (h : F.apply i e = some F') : Keeps F F' := by
  simp only [apply, Option.bind_eq_some_iff, Option.map_eq_some_iff] at h
  obtain ⟨F1, h1, F2, h2, rfl⟩ := h
  have := (keeps_pushed h1).trans (keeps_writeBack h2)
  exact ⟨this.atoms, this.lim, this.time⟩

theorem keeps_unary {F F' : Flat} {i : TlRec} {body : Ctrl → Option Verdict → Effect} (h : F.unary i body = some F') : Keeps F F' := by
  simp only [unary, Option.bind_eq_some_iff] at h
  obtain ⟨x, h1, _, _, h2⟩ := h
  exact (keeps_operand h1).trans (keeps_apply h2)

theorem keeps_binary {F F' : Flat} {i : TlRec} {body : Ctrl → Option Verdict → Option Verdict → Effect} (h : F.binary i body = some F') : Keeps F F' := by
  simp only [binary, Option.bind_eq_some_iff] at h
  obtain ⟨x, h1, y, h2, _, _, h3⟩ := h
  exact ((keeps_operand h1).trans (keeps_operand h2)).trans (keeps_apply h3)

theorem keeps_skipToLb {F F' : Flat} {i : TlRec} (h : F.skipToLb i = some F') : Keeps F F' := by
  simp only [skipToLb, Option.bind_eq_some_iff, Option.map_eq_some_iff] at h
  obtain ⟨_, _, _, _, rfl⟩ := h
  split
  · exact keeps_setBlock _ _ _
  · exact .refl _

theorem keeps_update {F F' : Flat} {i : TlRec} (h : F.update i = some F') : Keeps F F' := by
  unfold update at h
  split at h
  · exact keeps_unary h
  · exact keeps_unary h
  · obtain ⟨_, h1, h2⟩ := Option.bind_eq_some_iff.1 h; exact (keeps_skipToLb h1).trans (keeps_binary h2)
  · obtain ⟨_, h1, h2⟩ := Option.bind_eq_some_iff.1 h; exact (keeps_skipToLb h1).trans (keeps_binary h2)
  · obtain ⟨_, _, h2⟩ := Option.bind_eq_some_iff.1 h
    split at h2
    · exact keeps_apply h2
    · exact keeps_binary h2
  · obtain ⟨_, _, h2⟩ := Option.bind_eq_some_iff.1 h
    split at h2
    · exact keeps_apply h2
    · exact keeps_binary h2
  · exact keeps_unary h
  · exact keeps_binary h
  · exact keeps_binary h
  · exact keeps_binary h
  · cases h; exact .refl _

theorem keeps_pass : ∀ {prog : List TlRec} {F F' : Flat}, F.pass prog = some F' → Keeps F F'
  | [], _, _, h => by cases h; exact .refl _
  | i :: is, F, F', h => by
      obtain ⟨G, h1, h2⟩ := Option.bind_eq_some_iff.1 (show (F.update i).bind (pass is) = some F' from h)
      exact (keeps_update h1).trans (keeps_pass h2)

theorem loop_keeps {prog : List TlRec} : ∀ {n : Nat} {F F' : Flat}, F.loop prog n = some F' → F'.atoms = F.atoms ∧ F'.lim = F.lim
  | 0, _, _, h => by cases h
  | n + 1, F, F', h => by
      unfold loop at h
      split at h
      · cases h
      · rename_i G hG
        have k := keeps_pass hG
        split at h
        · have := loop_keeps h; exact ⟨this.1.trans k.atoms, this.2.trans k.lim⟩
        · have := loop_keeps h; exact ⟨this.1.trans k.atoms, this.2.trans k.lim⟩
        · cases h; exact ⟨k.atoms, k.lim⟩

theorem keeps_configure {F F' : Flat} {r : TlRec} (h : F.configure r = some F') : Keeps F F' := by
  unfold configure at h
  split at h
  · simp only [Option.bind_eq_some_iff] at h
    obtain ⟨_, _, _, _, h⟩ := h
    exact (keeps_setBlock _ _ _).trans (keeps_store h)
  · simp only [Option.bind_eq_some_iff] at h
    obtain ⟨_, _, _, h1, h2⟩ := h
    exact ((keeps_setBlock _ _ _).trans (keeps_store h1)).trans (keeps_store h2)
  · cases h; exact .refl _

theorem keeps_configureAll : ∀ {rs : List TlRec} {F F' : Flat}, configureAll rs F = some F' → Keeps F F'
  | [], _, _, h => by cases h; exact .refl _
  | r :: rs, F, F', h => by
      obtain ⟨G, h1, h2⟩ := Option.bind_eq_some_iff.1 (show (F.configure r).bind (configureAll rs) = some F' from h)
      exact (keeps_configure h1).trans (keeps_configureAll h2)

theorem keeps_setNext : ∀ {rs : List TlRec} {i : Nat} {F F' : Flat}, setNext i rs F = some F' → Keeps F F'
  | [], _, _, _, h => by cases h; exact .refl _
  | r :: rs, i, F, F', h => by
      unfold setNext at h
      obtain ⟨G, h1, h2⟩ := Option.bind_eq_some_iff.1 h
      refine Keeps.trans ?_ (keeps_setNext h2)
      split at h1
      · simp only [Option.bind_eq_some_iff, Option.map_eq_some_iff] at h1
        obtain ⟨_, _, _, _, rfl⟩ := h1
        exact keeps_setBlock _ _ _
      · cases h1; exact .refl _

theorem start_keeps {lim : Limits} {cs prog : List TlRec} {F : Flat} (h : start lim cs prog = some F) :
    F.atoms = (fun _ => false) ∧ F.lim = lim ∧ F.time = 0 := by
  obtain ⟨G, h1, h2⟩ := Option.bind_eq_some_iff.1 (show (configureAll cs (zero lim)).bind (setNext 0 prog) = some F from h)
  have := (keeps_configureAll h1).trans (keeps_setNext h2)
  exact ⟨this.atoms, this.lim, this.time⟩

/-- The first step, then the others. -/
theorem run_front (prog : List TlRec) (fuel : Nat) (tr : Nat → Nat → Bool) : ∀ (k : Nat) (F : Flat),
    run prog fuel tr (k + 1) F = (loop prog fuel { F with atoms := tr 0 }).bind (run prog fuel (fun t => tr (t + 1)) k)
  | 0, F => by simp [run]
  | k + 1, F => by
      rw [run, run_front prog fuel tr k F, Option.bind_assoc]
      rfl

end Flat

namespace Cli

theorem takeLine_line {l rest : List Char} : ∀ {n : Nat}, '\n' ∉ l → l.length < n → takeLine n (l ++ '\n' :: rest) = (l ++ ['\n'], rest) := by
  induction l with
  | nil => intro n _ hn; obtain ⟨m, rfl⟩ : ∃ m, n = m + 1 := ⟨n - 1, by simp at hn; omega⟩; simp [takeLine]
  | cons c l ih =>
    intro n hl hn
    obtain ⟨m, rfl⟩ : ∃ m, n = m + 1 := ⟨n - 1, by simp at hn; omega⟩
    simp only [List.mem_cons, not_or] at hl
    have := ih (n := m) hl.2 (by simpa using hn)
    simp [takeLine, Ne.symm hl.1, this]

theorem fgets_line {size : Nat} {l rest : List Char} (h1 : '\n' ∉ l) (h2 : l.length + 1 < size) :
    fgets size (l ++ '\n' :: rest) = some ((l ++ ['\n']).takeWhile (· ≠ '\x00'), rest) := by
  have : ∃ c s, l ++ '\n' :: rest = c :: s := by cases l <;> simp
  obtain ⟨c, s, e⟩ := this
  have k := takeLine_line (rest := rest) (n := size - 1) h1 (by omega)
  rw [e] at k
  rw [e]
  simp only [fgets, k]

/-- The text of a line without its end. -/
def body : List (List Char) → List Char
  | [] => []
  | [f] => f
  | f :: fs => f ++ ',' :: body fs

theorem row_body : ∀ r : List (List Char), row r = body r ++ ['\n']
  | [] => rfl
  | [f] => rfl
  | f :: g :: fs => by simp only [row, body, row_body (g :: fs), List.append_assoc, List.cons_append]

theorem body_mem : ∀ {r : List (List Char)}, (∀ f ∈ r, Field f) → ∀ c ∈ body r, c ≠ '\n' ∧ c ≠ '\x00'
  | [], _, c, hc => by simp [body] at hc
  | [f], h, c, hc => ((h f (by simp)).2 c hc).2
  | f :: g :: fs, h, c, hc => by
      simp only [body, List.mem_append, List.mem_cons] at hc
      rcases hc with hc | rfl | hc
      · exact ((h f (by simp)).2 c hc).2
      · decide
      · exact body_mem (fun f hf => h f (by simp [hf])) c hc

theorem strtok_field {f rest : List Char} {c : Char} (h : Field f) (hc : isSep c = true) : strtok isSep (f ++ c :: rest) = some (f, rest) := by
  obtain ⟨a, as, rfl⟩ := List.exists_cons_of_ne_nil h.1
  have hs : ∀ x ∈ a :: as, isSep x = false := by
    intro x hx
    have := h.2 x hx
    simp [isSep, this.1, this.2.1]
  have ha := hs a (by simp)
  have h1 : ∀ l : List Char, (∀ x ∈ l, isSep x = false) → (l ++ c :: rest).takeWhile (fun x => ! isSep x) = l ∧
      (l ++ c :: rest).dropWhile (fun x => ! isSep x) = c :: rest := by
    intro l hl
    induction l with
    | nil => simp [List.takeWhile_cons, List.dropWhile_cons, hc]
    | cons y ys ih =>
      have := ih fun x hx => hl x (by simp [hx])
      simp [List.takeWhile_cons, List.dropWhile_cons, hl y (by simp), this]
  obtain ⟨h2, h3⟩ := h1 _ hs
  have h4 : (a :: as ++ c :: rest).dropWhile isSep = a :: as ++ c :: rest := by simp [List.dropWhile_cons, ha]
  unfold strtok
  rw [h4]
  simp only [List.cons_append] at h2 h3 ⊢
  simp only [h2, h3, List.drop_succ_cons, List.drop_zero]

theorem tokens_row : ∀ {r : List (List Char)} {n : Nat}, (∀ f ∈ r, Field f) → r.length < n → tokens isSep n (row r) = r
  | [], n, _, hn => by
      obtain ⟨m, rfl⟩ : ∃ m, n = m + 1 := ⟨n - 1, by simp at hn; omega⟩
      simp [tokens, row, strtok, isSep]
  | [f], n, h, hn => by
      obtain ⟨m, rfl⟩ : ∃ m, n = m + 2 := ⟨n - 2, by simp at hn; omega⟩
      simp only [tokens, row, strtok_field (h f (by simp)) (show isSep '\n' = true from rfl)]
      simp [strtok]
  | f :: g :: fs, n, h, hn => by
      obtain ⟨m, rfl⟩ : ∃ m, n = m + 1 := ⟨n - 1, by simp at hn; omega⟩
      simp only [tokens, row, strtok_field (h f (by simp)) (show isSep ',' = true from rfl)]
      rw [tokens_row (fun f hf => h f (by simp [hf])) (by simp only [List.length_cons] at hn ⊢; omega)]

theorem loadFields_eq : ∀ (fs : List (List Char)) (i : Nat) (F : Flat), i + fs.length ≤ F.lim.atomics →
    loadFields F i fs = some { F with atoms := fun k => match (if k < i then none else fs[k - i]?) with | some f => decide (f ≠ ['0']) | none => F.atoms k }
  | [], i, F, _ => by simp [loadFields]
  | f :: fs, i, F, h => by
      simp only [List.length_cons] at h
      simp only [loadFields, loadString, if_pos (show i < F.lim.atomics by omega), Option.bind_some]
      rw [loadFields_eq fs (i + 1) _ (by simp only; omega)]
      congr 2
      funext k
      by_cases h1 : k < i
      · simp [h1, show k < i + 1 by omega, show k ≠ i by omega]
      · by_cases h2 : k = i
        · subst h2; simp
        · have h3 : ¬ k < i + 1 := by omega
          obtain ⟨d, rfl⟩ : ∃ d, k = i + 1 + d := ⟨k - (i + 1), by omega⟩
          simp only [if_neg h1, if_neg h3, show i + 1 + d - i = d + 1 by omega, show i + 1 + d - (i + 1) = d by omega, List.getElem?_cons_succ, if_neg h2]

theorem loadRow_eq {r : List (List Char)} {F : Flat} (hp : ∀ f, r.head? = some f → f.head? ≠ some '#' ∧ f.head? ≠ some '@')
    (hw : r.length ≤ F.lim.atomics) (hf : ∀ i, r.length ≤ i → F.atoms i = false) :
    loadRow F r = some (some { F with atoms := signal [r] 0 }) := by
  have key : ∀ fs, r = fs → loadFields F 0 fs = some { F with atoms := signal [r] 0 } := by
    rintro _ rfl
    rw [loadFields_eq r 0 F (by omega)]
    congr 2
    funext k
    simp only [Nat.not_lt_zero, if_false, Nat.sub_zero, signal, List.getElem?_cons_zero, Option.bind_some]
    by_cases hk : k < r.length
    · simp [List.getElem?_eq_getElem hk]
    · simp [List.getElem?_eq_none (Nat.le_of_not_lt hk), hf k (by omega)]
  cases r with
  | nil =>
    have := key [] rfl
    simp only [loadFields] at this
    simp only [loadRow]; rw [← Option.some.inj this]
  | cons f fs =>
    have h := (hp f rfl).2
    have := key _ rfl
    unfold loadRow
    split
    · rename_i heq; cases heq
    · rename_i heq
      cases heq
      split
      · exact absurd rfl h
      · rw [this]; rfl

/-- Lines the reader takes apart as written; it looks at the first field later. -/
structure Lines (size : Nat) (rows : List (List (List Char))) : Prop where
  fields : ∀ r ∈ rows, ∀ f ∈ r, Field f
  plain : ∀ r ∈ rows, ∀ f, r.head? = some f → f.head? ≠ some '#'
  fits : ∀ r ∈ rows, (row r).length < size

theorem Rows.lines {size w : Nat} {rows : List (List (List Char))} (h : Rows size w rows) : Lines size rows :=
  ⟨h.fields, fun r hr f hf => (h.plain r hr f hf).1, h.fits⟩

theorem body_head {r : List (List Char)} (h1 : ∀ f ∈ r, Field f) (h5 : ∀ f, r.head? = some f → f.head? ≠ some '#') :
    (body r ++ ['\n']).head? ≠ some '#' := by
  cases r with
  | nil => simp [body]
  | cons f fs =>
    have := h5 f rfl
    obtain ⟨a, as, rfl⟩ := List.exists_cons_of_ne_nil (h1 f (by simp)).1
    cases fs <;> simpa [body] using this

theorem fgets_row {size : Nat} {r : List (List Char)} (h1 : ∀ f ∈ r, Field f) (h3 : (row r).length < size) (rest : List Char) :
    fgets size (row r ++ rest) = some (body r ++ ['\n'], rest) := by
  have h2 := body_mem h1
  rw [row_body] at h3 ⊢
  simp only [List.length_append, List.length_singleton] at h3
  have h6 : (body r ++ ['\n']).takeWhile (· ≠ '\x00') = body r ++ ['\n'] := by
    rw [List.takeWhile_append_of_pos (fun c hc => by simpa using (h2 c hc).2)]
    rfl
  rw [List.append_assoc, List.singleton_append, fgets_line (fun h => (h2 _ h).1 rfl) (by omega), h6]

theorem loadNext_fields {size : Nat} {r : List (List Char)} {rows : List (List (List Char))} (hr : Lines size (r :: rows)) (F : Flat)
    (rest : List Char) : loadNext size F (row r ++ rest) = (loadRow F r).map fun x => x.map fun F => (F, rest) := by
  have h1 := hr.fields r (by simp)
  have h3 := hr.fits r (by simp)
  have h7 := body_head h1 (hr.plain r (by simp))
  have hlen : r.length < (body r ++ ['\n']).length + 1 := by
    have : ∀ r : List (List Char), (∀ f ∈ r, Field f) → r.length ≤ (body r).length + 1 := by
      intro r
      induction r with
      | nil => simp
      | cons f fs ih =>
        intro h
        have := ih fun f hf => h f (by simp [hf])
        have hp : 0 < f.length := List.length_pos_iff.2 (h f (by simp)).1
        cases fs with
        | nil => simp
        | cons g fs => simp only [body, List.length_append, List.length_cons] at this ⊢; omega
    have := this r h1
    simp only [List.length_append, List.length_singleton]; omega
  unfold loadNext
  rw [fgets_row h1 h3]
  simp only [if_neg (fun h : F.time = 0 ∧ _ => h7 h.2)]
  rw [← row_body] at hlen ⊢
  rw [tokens_row h1 hlen]

theorem loadNext_row {size w : Nat} {r : List (List Char)} {rows : List (List (List Char))} (hr : Rows size w (r :: rows)) {F : Flat}
    (hw : w ≤ F.lim.atomics) (hf : ∀ i, w ≤ i → F.atoms i = false) (rest : List Char) :
    loadNext size F (row r ++ rest) = some (some ({ F with atoms := signal (r :: rows) 0 }, rest)) := by
  have h4 := hr.width r (by simp)
  rw [loadNext_fields hr.lines, loadRow_eq (hr.plain r (by simp)) (by omega) (by rw [h4]; exact hf)]
  rfl

theorem signal_succ (r : List (List Char)) (rows : List (List (List Char))) (t : Nat) : signal (r :: rows) (t + 1) = signal rows t := by
  funext i; simp [signal]

theorem signal_head (r : List (List Char)) (rows : List (List (List Char))) : signal (r :: rows) 0 = signal [r] 0 := by
  funext i; simp [signal]

theorem mainLoop_rows {size w : Nat} (prog : List TlRec) (fuel : Nat) : ∀ (rows : List (List (List Char))) (n : Nat) (F : Flat), Rows size w rows →
    w ≤ F.lim.atomics → (∀ i, w ≤ i → F.atoms i = false) → rows.length < n →
    mainLoop size prog fuel n F (rows.flatMap row) = Flat.run prog fuel (signal rows) rows.length F
  | [], n, F, _, _, _, hn => by
      obtain ⟨m, rfl⟩ : ∃ m, n = m + 1 := ⟨n - 1, by simp at hn; omega⟩
      simp [mainLoop, loadNext, fgets, Flat.run]
  | r :: rows, n, F, hr, hw, hf, hn => by
      obtain ⟨m, rfl⟩ : ∃ m, n = m + 1 := ⟨n - 1, by simp at hn; omega⟩
      simp only [mainLoop, List.flatMap_cons, loadNext_row hr hw hf, Option.bind_some, List.length_cons, Flat.run_front]
      cases hl : Flat.loop prog fuel { F with atoms := signal (r :: rows) 0 } with
      | none => rfl
      | some G =>
        obtain ⟨g1, g2⟩ := Flat.loop_keeps hl
        simp only [Option.bind_some]
        rw [mainLoop_rows prog fuel rows m G ⟨fun r h => hr.width r (by simp [h]), fun r h => hr.fields r (by simp [h]),
          fun r h => hr.plain r (by simp [h]), fun r h => hr.fits r (by simp [h])⟩ (by rw [g2]; exact hw) ?_ (by simpa using hn)]
        · congr 1
        · intro i hi
          rw [g1]
          have := hr.width r (by simp)
          simp [signal, List.getElem?_eq_none (show r.length ≤ i by omega)]

theorem row_ne_nil (r : List (List Char)) : row r ≠ [] := by rw [row_body]; simp

theorem length_rows (rows : List (List (List Char))) : rows.length ≤ (rows.flatMap row).length := by
  induction rows with
  | nil => simp
  | cons r rows ih =>
    have := List.length_pos_iff.2 (row_ne_nil r)
    simp only [List.length_cons, List.flatMap_cons, List.length_append]; omega

/-- A header is skipped. -/
theorem mainLoop_header {size : Nat} (prog : List TlRec) (fuel N : Nat) {header : Option (List Char)} (hh : ∀ h, header = some h → Header size h)
    {rows : List (List (List Char))} (hr : Lines size rows) {F : Flat} (ht : F.time = 0) :
    mainLoop size prog fuel (N + 1) F (csv header rows) = mainLoop size prog fuel (N + 1) F (rows.flatMap row) := by
  cases header with
  | none => rfl
  | some h =>
    obtain ⟨h1, h2⟩ := hh h rfl
    have e : csv (some h) rows = ('#' :: h) ++ '\n' :: rows.flatMap row := by simp [csv]
    have k : loadNext size F (csv (some h) rows) = loadNext size F (rows.flatMap row) := by
      rw [e]
      unfold loadNext
      have hd : ((('#' :: h) ++ ['\n']).takeWhile (· ≠ '\x00')).head? = some '#' := by
        simp [List.takeWhile_cons]
      rw [fgets_line (by simp [h1]) (by simp only [List.length_cons]; omega)]
      simp only [ht, hd, and_self, if_true]
      cases rows with
      | nil => simp [fgets]
      | cons r rows =>
        have hline := body_head (hr.fields r (by simp)) (hr.plain r (by simp))
        simp only [List.flatMap_cons, fgets_row (hr.fields r (by simp)) (hr.fits r (by simp))]
        simp only [true_and, if_neg hline]
    simp only [mainLoop, k]

theorem mainLoop_csv {size w : Nat} (prog : List TlRec) (fuel : Nat) {header : Option (List Char)} (hh : ∀ h, header = some h → Header size h)
    {rows : List (List (List Char))} (hr : Rows size w rows) {F : Flat} (hw : w ≤ F.lim.atomics) (hf : ∀ i, w ≤ i → F.atoms i = false) (ht : F.time = 0) :
    mainLoop size prog fuel ((csv header rows).length + 1) F (csv header rows) = Flat.run prog fuel (signal rows) rows.length F := by
  have hl := length_rows rows
  rw [mainLoop_header prog fuel _ hh hr.lines ht]
  refine mainLoop_rows prog fuel rows _ F hr hw hf ?_
  simp only [csv, List.length_append]
  omega

end Cli
end R2U2
