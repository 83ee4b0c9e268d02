import Verif.VecStack
import Mathlib.Algebra.Order.Field.Basic
import Mathlib.Data.List.Forall2
import Mathlib.Data.Fin.VecNotation

/-!
# C93 and C94: stacked frames, and checking for nan
-/

set_option linter.unusedSectionVars false
set_option linter.unusedVariables false

namespace Neorl.VecStack

/-! ## C93 -/

section Stack

variable {K : Type} [Zero K] {n : ℕ}

/-- The last `m` entries of a sequence that is preceded by zeros. -/
def window (m : ℕ) (l : List K) : List K := (List.replicate m 0 ++ l).drop l.length

/-- The frames of the current episode of environment `i`, given those before. -/
def frames (i : Fin n) : List (List K) → List (Ev n K) → List (List K)
  | fs, [] => fs
  | _, .reset obs :: es => frames i [obs i] es
  | fs, .step obs dones _ :: es => frames i (if dones i then [obs i] else fs ++ [obs i]) es

/-- Every frame has `d` entries, terminal observations too. -/
def Fits (d : ℕ) : Ev n K → Prop
  | .reset obs => ∀ i, (obs i).length = d
  | .step obs dones term => ∀ i, (obs i).length = d ∧ ∀ t, term i = some t → t.length = d

theorem window_length (m : ℕ) (l : List K) : (window m l).length = m := by simp [window]

theorem putLast_roll {d m : ℕ} (hm : d ≤ m) (l o : List K) (ho : o.length = d) : putLast d (roll d (window m l)) o = window m (l ++ o) := by
  unfold putLast roll
  have hl := window_length m l
  rw [List.take_append_of_le_length (by simp [hl])]
  have : (List.drop d (window m l) ++ List.take d (window m l)).length - d = (List.drop d (window m l)).length := by simp [hl]; omega
  rw [this, List.take_length]
  unfold window
  have h1 : l.length ≤ (List.replicate m (0 : K) ++ l).length := by simp
  have h2 : d ≤ (List.drop l.length (List.replicate m (0 : K) ++ l)).length := by simpa using hm
  rw [← List.append_assoc, List.length_append, ho, ← List.drop_drop, List.drop_append_of_le_length h1, List.drop_append_of_le_length h2]

theorem putLast_zero {d m : ℕ} (hm : d ≤ m) (o : List K) (ho : o.length = d) : putLast d (List.replicate m 0) o = window m o := by
  unfold putLast window
  rw [List.drop_append_of_le_length (by simp; omega)]
  simp [ho]

theorem roll_length (d : ℕ) (r : List K) : (roll d r).length = r.length := by simp [roll]; omega

/-- The state holds the windows of the frames `fs`. -/
def Holds (m : ℕ) (fs : Fin n → List (List K)) (s : St n K) : Prop := s.cur < s.heap.length ∧ ∀ i, s.arr i = window m (fs i).flatten

theorem exec_holds {d m : ℕ} (hm : d ≤ m) {fs : Fin n → List (List K)} {s : St n K} (h : Holds m fs s) {e : Ev n K} (he : Fits d e) :
    Holds m (fun i => frames i (fs i) [e]) (exec d s e).1 := by
  obtain ⟨h1, h2⟩ := h
  cases e with
  | reset obs =>
    refine ⟨by simpa [exec, reset] using h1, fun i => ?_⟩
    have : (exec d s (.reset obs)).1.arr i = putLast d (List.replicate (s.arr i).length 0) (obs i) := by
      simp [exec, reset, St.arr, h1]
    rw [this, h2, window_length, putLast_zero hm _ (he i)]
    simp [frames]
  | step obs dones term =>
    refine ⟨by simp [exec, stepWait], fun i => ?_⟩
    have : (exec d s (.step obs dones term)).1.arr i = stepRow d (s.arr i) (dones i) (obs i) := by
      simp [exec, stepWait, St.arr]
    have hf : frames i (fs i) [.step obs dones term] = if dones i then [obs i] else fs i ++ [obs i] := rfl
    simp only [hf]
    rw [this, stepRow, h2]
    by_cases hd : dones i
    · rw [if_pos hd, if_pos hd, roll_length, window_length, putLast_zero hm _ (he i).1]
      simp
    · rw [if_neg hd, if_neg hd, putLast_roll hm _ _ (he i).1]
      simp

theorem frames_append (i : Fin n) : ∀ (es es' : List (Ev n K)) (fs : List (List K)), frames i fs (es ++ es') = frames i (frames i fs es) es' := by
  intro es
  induction es with
  | nil => intro es' fs; rfl
  | cons e es ih =>
    intro es' fs
    cases e <;> simp [frames, ih]

theorem run_holds {d m : ℕ} (hm : d ≤ m) : ∀ (es : List (Ev n K)) (fs : Fin n → List (List K)) (s : St n K), Holds m fs s → (∀ e ∈ es, Fits d e) →
    Holds m (fun i => frames i (fs i) es) (run d s es).1 := by
  intro es
  induction es with
  | nil => intro fs s h _; exact h
  | cons e es ih =>
    intro fs s h he
    have := ih _ _ (exec_holds hm h (he e (by simp))) fun e' h' => he e' (by simp [h'])
    rw [run]
    have e1 : (fun i => frames i (fs i) (e :: es)) = fun i => frames i (frames i (fs i) [e]) es := by
      funext i
      exact frames_append i [e] es (fs i)
    rw [e1]
    exact this

theorem init_holds (nStack d : ℕ) : Holds (n := n) (K := K) (nStack * d) (fun _ => []) (init n nStack d) :=
  ⟨by simp [init], fun i => by simp [init, St.arr, window]⟩

theorem run_snoc (d : ℕ) (e : Ev n K) : ∀ (es : List (Ev n K)) (s : St n K),
    run d s (es ++ [e]) = ((exec d (run d s es).1 e).1, (run d s es).2 ++ [(exec d (run d s es).1 e).2]) := by
  intro es
  induction es with
  | nil => intro s; rfl
  | cons a es ih => intro s; simp [run, ih]

/-- **C93.** After any sequence of resets and steps the array returned last holds, for every environment, the last `nStack` frames of its current episode, oldest first, preceded by
zeros if there are fewer. -/
theorem C93_window {nStack d : ℕ} (hn : 0 < nStack) {es : List (Ev n K)} {e : Ev n K} (he : ∀ a ∈ es ++ [e], Fits d a) :
    ∃ o, (run d (init n nStack d) (es ++ [e])).2.getLast? = some o ∧ ∃ a, (run d (init n nStack d) (es ++ [e])).1.heap[o.ref]? = some a ∧
      ∀ i, a i = window (nStack * d) (frames i [] (es ++ [e])).flatten := by
  have hm : d ≤ nStack * d := Nat.le_mul_of_pos_left d hn
  obtain ⟨h1, h2⟩ := run_holds hm (es ++ [e]) (fun _ => []) _ (init_holds (n := n) (K := K) nStack d) he
  have hr : (exec d (run d (init n nStack d) es).1 e).2.ref = (run d (init n nStack d) (es ++ [e])).1.cur := by
    rw [run_snoc]
    cases e <;> rfl
  refine ⟨(exec d (run d (init n nStack d) es).1 e).2, by rw [run_snoc]; simp, (run d (init n nStack d) (es ++ [e])).1.arr, ?_, h2⟩
  rw [hr]
  unfold St.arr
  rw [List.getD_eq_getElem?_getD, List.getElem?_eq_getElem h1]
  rfl

/-- **C93.** When an episode ends, the terminal observation is replaced by the window ending in it; it is left alone otherwise, and not invented if missing. -/
theorem C93_terminal {nStack d : ℕ} (hn : 0 < nStack) {es : List (Ev n K)} {obs : Fin n → List K} {dones : Fin n → Bool} {term : Fin n → Option (List K)}
    (he : ∀ a ∈ es ++ [Ev.step obs dones term], Fits d a) (i : Fin n) :
    ∃ o, (run d (init n nStack d) (es ++ [.step obs dones term])).2.getLast? = some o ∧
      (∀ t, dones i = true → term i = some t → o.term i = some (window (nStack * d) ((frames i [] es).flatten ++ t))) ∧
      (dones i = false ∨ term i = none → o.term i = term i) := by
  have hm : d ≤ nStack * d := Nat.le_mul_of_pos_left d hn
  obtain ⟨h1, h2⟩ := run_holds hm es (fun _ => []) _ (init_holds (n := n) (K := K) nStack d) fun a ha => he a (by simp [ha])
  refine ⟨_, by rw [run_snoc]; simp; rfl, ?_, ?_⟩
  · intro t hd ht
    have hl : t.length = d := (he (.step obs dones term) (by simp) i).2 t ht
    simp only [exec, stepWait, stepTerm, hd, ht, if_true, Option.map_some, h2]
    rw [putLast_roll hm _ _ hl]
  · intro h
    simp only [exec, stepWait, stepTerm]
    rcases h with h | h
    · rw [if_neg (by simp [h])]
    · rw [h]; simp

/-- **C93.** Steps never change an array that was returned earlier. -/
theorem C93_steps_keep (d : ℕ) (s : St n K) (es : List (Ev n K)) (he : ∀ e ∈ es, ∃ o ds t, e = Ev.step o ds t) (k : ℕ) (hk : k < s.heap.length) :
    (run d s es).1.heap[k]? = s.heap[k]? := by
  induction es generalizing s with
  | nil => rfl
  | cons e es ih =>
    obtain ⟨o, ds, t, rfl⟩ := he e (by simp)
    rw [run]
    refine (ih _ (fun a ha => he a (by simp [ha])) (by simp [exec, stepWait]; omega)).trans ?_
    simp [exec, stepWait, List.getElem?_append_left hk]

/-- **C93, defect.** `reset` writes into the array it returned last and returns it again: whoever kept the observations of the last step finds those of the reset there. -/
theorem C93_reset_overwrites {nStack d : ℕ} (hn : 0 < nStack) {es : List (Ev n K)} {e : Ev n K} {obs : Fin n → List K} (he : ∀ a ∈ es ++ [e] ++ [Ev.reset obs], Fits d a) :
    ∃ outs o o', (run d (init n nStack d) (es ++ [e] ++ [.reset obs])).2 = outs ++ [o, o'] ∧ o.ref = o'.ref ∧
      ∃ a, (run d (init n nStack d) (es ++ [e] ++ [.reset obs])).1.heap[o.ref]? = some a ∧ ∀ i, a i = window (nStack * d) (obs i) := by
  obtain ⟨o', ho', a, ha, hw⟩ := C93_window hn he
  rw [run_snoc] at ho' ha ⊢
  simp only [List.getLast?_append, List.getLast?_singleton, Option.some_or, Option.some.injEq] at ho'
  have hr : (exec d (run d (init n nStack d) es).1 e).2.ref = o'.ref := by
    rw [← ho', run_snoc]
    cases e <;> rfl
  refine ⟨(run d (init n nStack d) es).2, (exec d (run d (init n nStack d) es).1 e).2, o', ?_, hr, a, by rw [hr]; exact ha, fun i => ?_⟩
  · rw [ho', run_snoc]; simp
  · rw [hw i, frames_append]
    simp [frames]

end Stack

section Space

variable {K : Type} [Field K] [LinearOrder K] [IsStrictOrderedRing K]

/-- Every entry between its bounds. -/
def Within (low high row : List K) : Prop := List.Forall₂ (· ≤ ·) low row ∧ List.Forall₂ (· ≤ ·) row high

theorem repeat_const (m d : ℕ) (v : K) : repeatEach m (List.replicate d v) = List.replicate (m * d) v := by
  unfold repeatEach
  induction d with
  | zero => simp
  | succ d ih => rw [List.replicate_succ, List.flatMap_cons, ih, List.replicate_append_replicate]; congr 1; ring

theorem forall₂_replicate_left {R : K → K → Prop} {v : K} : ∀ {l : List K} {m : ℕ}, l.length = m → (∀ x ∈ l, R v x) → List.Forall₂ R (List.replicate m v) l := by
  intro l
  induction l with
  | nil => intro m hm _; subst hm; exact .nil
  | cons a l ih =>
    intro m hm h
    cases m with
    | zero => simp at hm
    | succ m => exact .cons (h a (by simp)) (ih (by simpa using hm) fun x hx => h x (by simp [hx]))

theorem forall₂_replicate_right {R : K → K → Prop} {v : K} : ∀ {l : List K} {m : ℕ}, l.length = m → (∀ x ∈ l, R x v) → List.Forall₂ R l (List.replicate m v) := by
  intro l
  induction l with
  | nil => intro m hm _; subst hm; exact .nil
  | cons a l ih =>
    intro m hm h
    cases m with
    | zero => simp at hm
    | succ m => exact .cons (h a (by simp)) (ih (by simpa using hm) fun x hx => h x (by simp [hx]))

/-- **C93.** If all entries of a frame have the same bounds and zero is within them, the stacked rows are in the declared space. -/
theorem C93_space (m d : ℕ) (lo hi : K) (h0 : lo ≤ 0) (h1 : 0 ≤ hi) (fs : List (List K)) (hf : ∀ f ∈ fs, ∀ v ∈ f, lo ≤ v ∧ v ≤ hi) :
    Within (repeatEach m (List.replicate d lo)) (repeatEach m (List.replicate d hi)) (window (m * d) fs.flatten) := by
  have hv : ∀ x ∈ window (m * d) fs.flatten, lo ≤ x ∧ x ≤ hi := by
    intro x hx
    rcases List.mem_append.1 (List.mem_of_mem_drop hx) with h | h
    · rw [List.eq_of_mem_replicate h]; exact ⟨h0, h1⟩
    · obtain ⟨f, hf', hx'⟩ := List.mem_flatten.1 h
      exact hf f hf' x hx'
  rw [repeat_const, repeat_const]
  exact ⟨forall₂_replicate_left (window_length _ _) fun x hx => (hv x hx).1, forall₂_replicate_right (window_length _ _) fun x hx => (hv x hx).2⟩

/-- **C93, defect.** With different bounds per entry the declared space is wrong: the bounds are repeated entry by entry while the frames are put one after the other.  For frames of two
entries with disjoint bounds no stack of two frames within their bounds is in the declared space. -/
theorem C93_space_wrong (l1 h1 l2 h2 : K) (h : h1 < l2) (f g : List K) (hf : Within [l1, l2] [h1, h2] f) (hg : Within [l1, l2] [h1, h2] g) :
    window (2 * 2) [f, g].flatten = f ++ g ∧ ¬ Within (repeatEach 2 [l1, l2]) (repeatEach 2 [h1, h2]) (window (2 * 2) [f, g].flatten) := by
  obtain ⟨hf1, hf2⟩ := hf
  obtain ⟨hg1, hg2⟩ := hg
  cases hf1 with | cons a1 t => cases t with | cons a2 t => cases t with
  | nil =>
  cases hf2 with | cons b1 t => cases t with | cons b2 t =>
  cases hg1 with | cons c1 t => cases t with | cons c2 t => cases t with
  | nil =>
  rename_i x1 x2 y1 y2
  have hw : window (2 * 2) [[x1, x2], [y1, y2]].flatten = [x1, x2] ++ [y1, y2] := by simp [window, List.replicate_succ]
  refine ⟨hw, fun hW => ?_⟩
  rw [hw] at hW
  have := hW.2
  simp only [repeatEach, List.flatMap_cons, List.flatMap_nil, List.replicate_succ, List.replicate_zero, List.cons_append, List.nil_append, List.append_nil, List.forall₂_cons] at this
  exact absurd (lt_of_lt_of_le h (a2.trans this.2.1)) (lt_irrefl _)

end Space

/-! ## C94 -/

section Nan

variable {K : Type}

/-- The arrays that a call shows to the check, as a caller sees them. -/
def shown : Call K → List (List (Fl K))
  | .async a => [a]
  | .wait o r => [o, r]
  | .reset o => [o]

/-- A call is bad if one of its arrays has a nan, or an infinity when these are checked. -/
def Bad (c : Conf) (e : Call K) : Prop := ∃ l ∈ shown e, Fl.nan ∈ l ∨ c.checkInf = true ∧ ∃ b, Fl.inf b ∈ l

theorem isNan_iff (v : Fl K) : v.isNan = true ↔ v = .nan := by cases v <;> simp [Fl.isNan]

theorem isInf_iff (v : Fl K) : v.isInf = true ↔ ∃ b, v = .inf b := by cases v <;> simp [Fl.isInf]

theorem findBad_nil (c : Conf) (vals : List (String × List (Fl K))) :
    findBad c vals = [] ↔ ∀ p ∈ vals, ¬ (Fl.nan ∈ p.2 ∨ c.checkInf = true ∧ ∃ b, Fl.inf b ∈ p.2) := by
  induction vals with
  | nil => simp [findBad]
  | cons p vals ih =>
    obtain ⟨name, val⟩ := p
    have hn : val.any Fl.isNan = true ↔ Fl.nan ∈ val := by
      rw [List.any_eq_true]
      constructor
      · rintro ⟨x, hx, h⟩; rwa [(isNan_iff x).1 h] at hx
      · intro h; exact ⟨_, h, rfl⟩
    have hi : val.any Fl.isInf = true ↔ ∃ b, Fl.inf b ∈ val := by
      rw [List.any_eq_true]
      constructor
      · rintro ⟨x, hx, h⟩
        obtain ⟨b, rfl⟩ := (isInf_iff x).1 h
        exact ⟨b, hx⟩
      · rintro ⟨b, h⟩; exact ⟨_, h, rfl⟩
    rw [findBad, List.append_eq_nil_iff, List.append_eq_nil_iff, ih, List.forall_mem_cons]
    simp only [ite_eq_right_iff, List.cons_ne_self, imp_false, Bool.and_eq_true, hn, hi]
    tauto

/-- The named arrays checked in a call. -/
def named : Call K → List (String × List (Fl K))
  | .async a => [("actions", a)]
  | .wait o r => [("observations", o), ("rewards", r), ("news", [])]
  | .reset o => [("observations", o)]

theorem bad_iff (c : Conf) (e : Call K) : findBad c (named e) = [] ↔ ¬ Bad c e := by
  rw [findBad_nil]
  unfold Bad
  cases e <;> simp [named, shown]

/-- The state after a call that goes through, and after one that raises. -/
def after (s : Chk K) : Call K → Chk K
  | .async a => { s with actions := some a, given := s.given ++ [a] }
  | .wait o r => { s with observations := some o }
  | .reset o => { s with observations := some o }

def before (s : Chk K) : Call K → Chk K
  | .reset o => { s with actions := none }
  | _ => s

def isAsync : Call K → Bool
  | .async _ => true
  | _ => false

theorem call_eq (c : Conf) (s : Chk K) (e : Call K) : call c s e =
    match checkVal c (isAsync e) (named e) (before s e) with
    | (s1, .raised m) => (s1, .raised m)
    | (s1, .done w) => (after s1 e, .done w) := by
  cases e with
  | async a => rfl
  | wait o r => rfl
  | reset o => rfl

/-- **C94.** With `raise_exception` a call raises exactly when it is bad, also after earlier exceptions and warnings; bad actions do not reach the environments, all others do. -/
theorem C94_raise (c : Conf) (hc : c.raiseException = true) (s : Chk K) (e : Call K) :
    ((∃ m, (call c s e).2 = .raised m) ↔ Bad c e) ∧ (∀ w, (call c s e).2 = .done w → w = none) ∧
    (∀ a, e = .async a → (Bad c e → (call c s e).1.given = s.given) ∧ (¬ Bad c e → (call c s e).1.given = s.given ++ [a])) := by
  have hb := bad_iff c e
  by_cases h : findBad c (named e) = []
  · have hce : call c s e = (after (before s e) e, .done none) := by
      rw [call_eq]; simp [checkVal, hc, h]
    rw [hce]
    refine ⟨by simp [← hb, h], by simp, ?_⟩
    rintro a rfl
    exact ⟨fun hB => absurd hB (hb.1 h), fun _ => rfl⟩
  · have hce : ∃ m, call c s e = ({ before s e with warned := true }, .raised m) := by
      rw [call_eq]; simp [checkVal, hc, h]
    obtain ⟨m, hce⟩ := hce
    rw [hce]
    refine ⟨?_, by simp, ?_⟩
    · rw [hb] at h
      simpa using h
    · rintro a rfl
      exact ⟨fun _ => rfl, fun hB => absurd (hb.2 hB) h⟩

/-- Whether a result carries a warning. -/
def Res.warns : Res K → Bool
  | .done (some _) => true
  | _ => false

theorem call_warn (c : Conf) (hc : c.raiseException = false) (s : Chk K) (e : Call K) [Decidable (Bad c e)] :
    ∃ w, call c s e = ({ after (before s e) e with warned := s.warned || (call c s e).2.warns }, .done w) ∧
      ((call c s e).2.warns = true ↔ Bad c e ∧ ¬ (c.warnOnce = true ∧ s.warned = true)) := by
  have hb := bad_iff c e
  have hw : (before s e).warned = s.warned := by cases e <;> rfl
  by_cases h1 : c.warnOnce = true ∧ s.warned = true
  · have hce : call c s e = (after (before s e) e, .done none) := by
      rw [call_eq]; simp [checkVal, hc, h1, hw]
    rw [hce]
    refine ⟨none, ?_, by simp [Res.warns, h1]⟩
    cases e <;> simp [Res.warns, after, before]
  · have h1' : (c.warnOnce && s.warned) = false := by
      rw [← Bool.not_eq_true, Bool.and_eq_true]; exact h1
    by_cases h : findBad c (named e) = []
    · have hce : call c s e = (after (before s e) e, .done none) := by
        rw [call_eq]; simp [checkVal, h]
      rw [hce]
      refine ⟨none, ?_, by simp [Res.warns, hb.1 h]⟩
      cases e <;> simp [Res.warns, after, before]
    · have hce : ∃ m, call c s e = (after { before s e with warned := true } e, .done (some m)) := by
        rw [call_eq]
        unfold checkVal
        rw [if_neg (by simp [hc, hw]; simpa using h1), if_neg h]
        simp [hc]
      obtain ⟨m, hce⟩ := hce
      rw [hce]
      have hB : Bad c e := by by_contra hB; exact h (hb.2 hB)
      refine ⟨some m, ?_, by simp [Res.warns, hB]; simpa using h1⟩
      cases e <;> simp [Res.warns, after, before]

/-- The number of warnings in a run. -/
def warnings (l : List (Res K)) : ℕ := l.countP Res.warns

/-- **C94.** Without `raise_exception` nothing raises and all actions reach the environments.  Every bad call warns if `warn_once` is off; if it is on, there is exactly one warning when
there is a bad call, given by the first bad call, and none otherwise. -/
theorem C94_warn (c : Conf) (hc : c.raiseException = false) [∀ e : Call K, Decidable (Bad c e)] (es : List (Call K)) :
    (∀ r ∈ (calls c (chk0 K) es).2, ∃ w, r = .done w) ∧
    (calls c (chk0 K) es).1.given = es.filterMap (fun | .async a => some a | _ => none) ∧
    (c.warnOnce = false → (calls c (chk0 K) es).2.map Res.warns = es.map fun e => decide (Bad c e)) ∧
    (c.warnOnce = true → ∀ (i : ℕ) r, (calls c (chk0 K) es).2[i]? = some r → (r.warns = true ↔ (∃ e, es[i]? = some e ∧ Bad c e) ∧ ∀ j < i, ∀ e, es[j]? = some e → ¬ Bad c e)) := by
  have key : ∀ (es : List (Call K)) (s : Chk K),
      (∀ r ∈ (calls c s es).2, ∃ w, r = .done w) ∧
      (calls c s es).1.given = s.given ++ es.filterMap (fun | .async a => some a | _ => none) ∧
      (c.warnOnce = false → (calls c s es).2.map Res.warns = es.map fun e => decide (Bad c e)) ∧
      (c.warnOnce = true → ∀ (i : ℕ) r, (calls c s es).2[i]? = some r → (r.warns = true ↔ s.warned = false ∧ (∃ e, es[i]? = some e ∧ Bad c e) ∧ ∀ j < i, ∀ e, es[j]? = some e → ¬ Bad c e)) := by
    intro es
    induction es with
    | nil => intro s; simp [calls]
    | cons e es ih =>
      intro s
      obtain ⟨w, hce, hwarn⟩ := call_warn c hc s e
      obtain ⟨i1, i2, i3, i4⟩ := ih (call c s e).1
      have hg : (call c s e).1.given = s.given ++ (match e with | .async a => [a] | _ => []) := by
        rw [hce]; cases e <;> simp [after, before]
      have hwd : (call c s e).1.warned = (s.warned || (call c s e).2.warns) := by
        conv_lhs => rw [hce]
      refine ⟨?_, ?_, ?_, ?_⟩
      · intro r hr
        rw [calls] at hr
        rcases List.mem_cons.1 hr with rfl | hr
        · exact ⟨w, by rw [hce]⟩
        · exact i1 r hr
      · rw [calls, i2, hg]
        cases e <;> simp
      · intro ho
        rw [calls, List.map_cons, List.map_cons, i3 ho]
        congr 1
        rw [Bool.eq_iff_iff, hwarn]
        simp [ho]
      · intro ho i r hr
        rw [calls] at hr
        cases i with
        | zero =>
          simp only [List.getElem?_cons_zero, Option.some.injEq] at hr
          subst hr
          rw [hwarn]
          simp [ho]
          tauto
        | succ i =>
          simp only [List.getElem?_cons_succ] at hr
          rw [i4 ho i r hr, hwd, Bool.or_eq_false_iff, ← Bool.not_eq_true (call c s e).2.warns, hwarn]
          simp only [ho, true_and, List.getElem?_cons_succ]
          constructor
          · rintro ⟨⟨a1, a2⟩, a3, a4⟩
            refine ⟨a1, a3, ?_⟩
            intro j hj e' he'
            cases j with
            | zero =>
              simp only [List.getElem?_cons_zero, Option.some.injEq] at he'
              subst he'
              intro hB
              exact a2 ⟨hB, by simp [a1]⟩
            | succ j => exact a4 j (by omega) e' (by simpa using he')
          · rintro ⟨a1, a3, a4⟩
            refine ⟨⟨a1, fun hB => a4 0 (by omega) e (by simp) hB.1⟩, a3, ?_⟩
            intro j hj e' he'
            exact a4 (j + 1) (by omega) e' (by simpa using he')
  obtain ⟨k1, k2, k3, k4⟩ := key es (chk0 K)
  refine ⟨k1, by simpa [chk0] using k2, k3, fun ho i r hr => ?_⟩
  rw [k4 ho i r hr]
  simp [chk0]

/-- The message of a result. -/
def Res.msg : Res K → Option (Msg K)
  | .raised m => some m
  | .done w => w

/-- **C94.** A message says what is there: an array is reported with `nan` or `inf` exactly if it contains one, and the origin is the policy (with the observations it was last given) for
actions, the reset for the observations of a reset, and for a step following `step_async` the actions that were passed. -/
theorem C94_message (c : Conf) (s : Chk K) :
    (∀ a m, (call c s (.async a)).2.msg = some m → m.origin = .model s.observations ∧ (("actions", "nan") ∈ m.found ↔ Fl.nan ∈ a)) ∧
    (∀ o m, (call c s (.reset o)).2.msg = some m → m.origin = .atReset ∧ (("observations", "nan") ∈ m.found ↔ Fl.nan ∈ o)) ∧
    (∀ a o r m, (∃ w, (call c s (.async a)).2 = .done w) → (call c (call c s (.async a)).1 (.wait o r)).2.msg = some m →
      m.origin = .action a ∧ (("observations", "nan") ∈ m.found ↔ Fl.nan ∈ o) ∧ (("rewards", "nan") ∈ m.found ↔ Fl.nan ∈ r) ∧
        (("rewards", "inf") ∈ m.found ↔ c.checkInf = true ∧ ∃ b, Fl.inf b ∈ r)) := by
  have hn : ∀ val : List (Fl K), val.any Fl.isNan = true ↔ Fl.nan ∈ val := by
    intro val
    rw [List.any_eq_true]
    constructor
    · rintro ⟨x, hx, h⟩; rwa [(isNan_iff x).1 h] at hx
    · intro h; exact ⟨_, h, rfl⟩
  have hi : ∀ val : List (Fl K), val.any Fl.isInf = true ↔ ∃ b, Fl.inf b ∈ val := by
    intro val
    rw [List.any_eq_true]
    constructor
    · rintro ⟨x, hx, h⟩
      obtain ⟨b, rfl⟩ := (isInf_iff x).1 h
      exact ⟨b, hx⟩
    · rintro ⟨b, h⟩; exact ⟨_, h, rfl⟩
  have hm : ∀ (e : Call K) (s : Chk K) m, (call c s e).2.msg = some m → m = { found := findBad c (named e), origin := if !isAsync e then (match (before s e).actions with | none => .atReset | some a => .action a) else .model (before s e).observations } := by
    intro e s m h
    rw [call_eq] at h
    unfold checkVal at h
    by_cases h1 : (!c.raiseException && c.warnOnce && (before s e).warned) = true
    · rw [if_pos h1] at h
      simp [Res.msg] at h
    · rw [if_neg h1] at h
      by_cases h2 : findBad c (named e) = []
      · rw [if_pos h2] at h
        simp [Res.msg] at h
      · rw [if_neg h2] at h
        cases hr : c.raiseException
        · simp only [hr, Bool.false_eq_true, if_false, Res.msg, Option.some.injEq] at h
          exact h.symm
        · simp only [hr, if_true, Res.msg, Option.some.injEq] at h
          exact h.symm
  refine ⟨?_, ?_, ?_⟩
  · intro a m h
    rw [hm _ _ _ h]
    refine ⟨rfl, ?_⟩
    simp only [named, findBad, List.append_nil, List.mem_append, ← hn]
    constructor
    · rintro (h | h)
      · split_ifs at h <;> simp at h
      · split_ifs at h with h1
        · exact h1
        · simp at h
    · intro h; right; rw [if_pos h]; simp
  · intro o m h
    rw [hm _ _ _ h]
    refine ⟨rfl, ?_⟩
    simp only [named, findBad, List.append_nil, List.mem_append, ← hn]
    constructor
    · rintro (h | h)
      · split_ifs at h <;> simp at h
      · split_ifs at h with h1
        · exact h1
        · simp at h
    · intro h; right; rw [if_pos h]; simp
  · intro a o r m ⟨w, hw⟩ h
    rw [hm _ _ _ h]
    have ha : (call c s (.async a)).1.actions = some a := by
      rw [call_eq] at hw ⊢
      generalize checkVal c (isAsync (Call.async a)) (named (Call.async a)) (before s (Call.async a)) = q at hw ⊢
      obtain ⟨s1, q⟩ := q
      cases q with
      | raised m => cases hw
      | done w => rfl
    refine ⟨by simp [isAsync, before, ha], ?_, ?_, ?_⟩
    · rw [← hn]
      simp only [named, findBad]
      generalize c.checkInf = b1, o.any Fl.isNan = b2, o.any Fl.isInf = b3, r.any Fl.isNan = b4, r.any Fl.isInf = b5
      cases b1 <;> cases b2 <;> cases b3 <;> cases b4 <;> cases b5 <;> simp
    · rw [← hn]
      simp only [named, findBad]
      generalize c.checkInf = b1, o.any Fl.isNan = b2, o.any Fl.isInf = b3, r.any Fl.isNan = b4, r.any Fl.isInf = b5
      cases b1 <;> cases b2 <;> cases b3 <;> cases b4 <;> cases b5 <;> simp
    · rw [← hi]
      simp only [named, findBad]
      generalize c.checkInf = b1, o.any Fl.isNan = b2, o.any Fl.isInf = b3, r.any Fl.isNan = b4, r.any Fl.isInf = b5
      cases b1 <;> cases b2 <;> cases b3 <;> cases b4 <;> cases b5 <;> simp

end Nan

/-! ### Cases -/

/-- Two environments, stack of two frames of one entry; the second ends its episode. -/
def exE : List (Ev 2 ℤ) := [.reset ![[1], [5]], .step ![[2], [6]] ![false, true] ![none, some [9]], .step ![[3], [7]] ![false, false] ![none, none]]

example : ∀ e ∈ exE, Fits 1 e := by
  simp [exE, Fits, Fin.forall_fin_two]

example : (run 1 (init 2 2 1) exE).1.arr 0 = [2, 3] ∧ (run 1 (init 2 2 1) exE).1.arr 1 = [6, 7] ∧ ((run 1 (init 2 2 1) exE).2.map fun o => o.term 1) = [none, some [5, 9], none] := by decide

/-- Wrong declared space: bounds `[0,1] × [10,20]`. -/
example : Within [(0 : ℚ), 10] [1, 20] [1, 15] := by
  refine ⟨?_, ?_⟩ <;> simp <;> norm_num

/-- A nan reward after the actions `[1]`. -/
example : (calls { raiseException := false, warnOnce := true, checkInf := true } (chk0 ℤ) [.reset [.num 0], .async [.num 1], .wait [.num 2] [.nan], .async [.nan]]).2 =
    [.done none, .done none, .done (some { found := [("rewards", "nan")], origin := .action [.num 1] }), .done none] := by decide

end Neorl.VecStack
