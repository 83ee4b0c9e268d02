import Verif.EnvCheck

/-!
# C140: which environments pass the check
-/

set_option linter.unusedSectionVars false
set_option linter.unusedVariables false

namespace Neorl.EnvCheck

variable {E O R A : Type}

/-! ### Specification -/

/-- An observation as the documentation demands it: a member of the space, of the Python type that goes with the space. -/
def Proper (v : Env E O R A) (o : O) : Prop :=
  v.contains o = true ∧
  match v.kind with
  | .discrete => v.ty o = .int ∨ v.ty o = .bool
  | .box => v.ty o = .ndarray
  | .other => v.ty o = .ndarray
  | .dict => v.ty o ≠ .tuple
  | .tuple => True

/-- The data of a step as the documentation demands them. -/
def ProperData (v : Env E O R A) (d : Data O R) : Prop :=
  d.len = 4 ∧ Proper v d.obs ∧ d.rewTy ∈ [Ty.int, .bool, .float, .npFloat64] ∧ d.doneTy = .bool ∧ d.infoTy = .dict ∧ (v.goal = true → v.goalOK d = true)

/-- `n` more steps with the actions `k, k+1, ...` raise nothing; after the end of an episode the environment is reset. -/
inductive Survives (v : Env E O R A) : ℕ → ℕ → E → Prop
  | stop (k : ℕ) (e : E) : Survives v 0 k e
  | go (n k : ℕ) (e e' : E) (d : Data O R) (h : v.step e (v.sample k) = .ok (e', d)) (hl : d.len = 4) (hd : d.done = false) (hf : v.fits d.obs = true)
      (hs : Survives v n (k + 1) e') : Survives v (n + 1) k e
  | ended (n k : ℕ) (e e' e'' : E) (d : Data O R) (o : O) (h : v.step e (v.sample k) = .ok (e', d)) (hl : d.len = 4) (hd : d.done = true) (hi : d.infoTy = .dict)
      (hr : v.reset e' = .ok (e'', o)) (hf : v.fits o = true) (hs : Survives v n (k + 1) e'') : Survives v (n + 1) k e

/-- What `check_env` really demands. -/
def Conforms (v : Env E O R A) (skipRender : Bool) : Prop :=
  v.isEnv = true ∧ v.hasObs = true ∧ v.hasAct = true ∧ v.obsIsSpace = true ∧ v.actIsSpace = true ∧
  (skipRender = false → ∀ ms, v.renderModes = some ms → ∀ m ∈ ms, v.render m = .ok ()) ∧
  ∃ e1 o e2 d, v.reset v.e0 = .ok (e1, o) ∧ Proper v o ∧ v.step e1 (v.sample 0) = .ok (e2, d) ∧ ProperData v d ∧
    (v.kind ≠ .dict → v.kind ≠ .tuple → Survives v 10 1 e2)

/-! ### Lemmas -/

theorem pyAssert_ok {b : Bool} {u : Unit} : pyAssert b = .ok u ↔ b = true := by
  unfold pyAssert; cases b <;> simp

theorem bind_ok {α β : Type} {x : Py α} {f : α → Py β} {y : β} : (x >>= f) = .ok y ↔ ∃ a, x = .ok a ∧ f a = .ok y := by
  cases x <;> simp [bind, Except.bind]

theorem pure_ok {α : Type} {a b : α} : (pure a : Py α) = .ok b ↔ a = b := by simp [pure, Except.pure]

theorem checkObs_ok {v : Env E O R A} {o : O} {u : Unit} : checkObs v o = .ok u ↔ Proper v o := by
  unfold checkObs Proper enforceArray
  cases hk : v.kind <;> simp [bind_ok, pyAssert_ok] <;> cases ht : v.ty o <;> simp [Ty.isInt]

theorem isReal_iff (t : Ty) : t.isReal = true ↔ t ∈ [Ty.int, .bool, .float, .npFloat64] := by cases t <;> simp [Ty.isReal]

theorem checkReturned_ok (v : Env E O R A) (e : E) :
    checkReturned v = .ok e ↔ ∃ e1 o d, v.reset v.e0 = .ok (e1, o) ∧ Proper v o ∧ v.step e1 (v.sample 0) = .ok (e, d) ∧ ProperData v d := by
  unfold checkReturned ProperData
  simp only [bind_ok, pyAssert_ok, pure_ok, checkObs_ok, isReal_iff, Prod.exists, beq_iff_eq, decide_eq_true_eq]
  constructor
  · rintro ⟨e1, o, h1, _, h2, e2, d, h3, _, h4, _, h5, _, h6, _, h7, _, h8, _, h9, rfl⟩
    refine ⟨e1, o, d, h1, h2, h3, h4, h5, h6, h7, h8, fun hg => ?_⟩
    unfold assertIf at h9
    rw [if_pos hg] at h9
    exact pyAssert_ok.1 h9
  · rintro ⟨e1, o, d, h1, h2, h3, h4, h5, h6, h7, h8, h9⟩
    refine ⟨e1, o, h1, (), h2, e, d, h3, (), h4, (), h5, (), h6, (), h7, (), h8, (), ?_, rfl⟩
    unfold assertIf
    split_ifs with hg
    · exact pyAssert_ok.2 (h9 hg)
    · rfl

theorem dummyStep_ok (v : Env E O R A) (e : E) (a : A) (e' : E) (o : O) (d : Data O R) :
    dummyStep v e a = .ok (e', o, d) ↔
      ∃ e1, v.step e a = .ok (e1, d) ∧ d.len = 4 ∧
        ((d.done = false ∧ e' = e1 ∧ o = d.obs ∧ v.fits d.obs = true) ∨ (d.done = true ∧ d.infoTy = .dict ∧ v.reset e1 = .ok (e', o) ∧ v.fits o = true)) := by
  unfold dummyStep
  rw [bind_ok]
  constructor
  · rintro ⟨⟨e1, d1⟩, h1, h2⟩
    simp only at h2
    split_ifs at h2 with a1 a2 a3 a4
    · obtain ⟨⟨e2, o2⟩, h3, h4⟩ := bind_ok.1 h2
      simp only at h4
      split_ifs at h4 with a5
      cases h4
      exact ⟨e1, h1, not_not.1 a1, Or.inr ⟨a2, not_not.1 a3, h3, a5⟩⟩
    · cases h2
      exact ⟨e', h1, not_not.1 a1, Or.inl ⟨by simpa using a2, rfl, rfl, a4⟩⟩
  · rintro ⟨e1, h1, h2, ⟨h3, rfl, rfl, h4⟩ | ⟨h3, h4, h5, h6⟩⟩
    · exact ⟨_, h1, by simp [h2, h3, h4, pure, Except.pure]⟩
    · exact ⟨_, h1, by simp [h2, h3, h4, h5, h6, bind, Except.bind, pure, Except.pure]⟩

theorem checkNan_ok (v : Env E O R A) (n k : ℕ) (e : E) (w : Bool) : (∃ ws, checkNan v n k e w = .ok ws) ↔ Survives v n k e := by
  induction n generalizing k e w with
  | zero => exact ⟨fun _ => .stop k e, fun _ => ⟨[], rfl⟩⟩
  | succ n ih =>
    constructor
    · rintro ⟨ws, h⟩
      unfold checkNan at h
      simp only [bind_ok, Prod.exists] at h
      obtain ⟨e', o, d, h1, ws', h2, -⟩ := h
      have hs := (ih _ _ _).1 ⟨ws', h2⟩
      obtain ⟨e1, g1, g2, ⟨g3, rfl, rfl, g4⟩ | ⟨g3, g4, g5, g6⟩⟩ := (dummyStep_ok ..).1 h1
      · exact .go n k e _ d g1 g2 g3 g4 hs
      · exact .ended n k e e1 e' d o g1 g2 g3 g4 g5 g6 hs
    · intro h
      cases h with
      | go _ _ _ e' d h1 h2 h3 h4 hs =>
        unfold checkNan
        simp only [bind_ok, Prod.exists]
        obtain ⟨ws, h⟩ := (ih (k + 1) e' ((w || v.badA (v.sample k)) || (v.badO d.obs || v.badR d.rew))).2 hs
        exact ⟨_, e', d.obs, d, (dummyStep_ok ..).2 ⟨e', h1, h2, Or.inl ⟨h3, rfl, rfl, h4⟩⟩, ws, h, rfl⟩
      | ended _ _ _ e' e'' d o h1 h2 h3 h4 h5 h6 hs =>
        unfold checkNan
        simp only [bind_ok, Prod.exists]
        obtain ⟨ws, h⟩ := (ih (k + 1) e'' ((w || v.badA (v.sample k)) || (v.badO o || v.badR d.rew))).2 hs
        exact ⟨_, e'', o, d, (dummyStep_ok ..).2 ⟨e', h1, h2, Or.inr ⟨h3, h4, h5, h6⟩⟩, ws, h, rfl⟩

theorem forM_ok (f : String → Py Unit) (ms : List String) {u : Unit} : forM ms f = .ok u ↔ ∀ m ∈ ms, f m = .ok () := by
  induction ms with
  | nil => simp [pure, Except.pure]
  | cons m ms ih =>
    rw [List.forM_cons, bind_ok]
    constructor
    · rintro ⟨_, h1, h2⟩ x hx
      rcases List.mem_cons.1 hx with rfl | hx
      · exact h1
      · exact (ih.1 h2) x hx
    · intro h
      exact ⟨(), h m (by simp), ih.2 fun x hx => h x (by simp [hx])⟩

theorem checkRender_ok (v : Env E O R A) (warn : Bool) : (∃ ws, checkRender v warn = .ok ws) ↔ ∀ ms, v.renderModes = some ms → ∀ m ∈ ms, v.render m = .ok () := by
  unfold checkRender
  cases hm : v.renderModes with
  | none => exact ⟨fun _ ms h => by simp at h, fun _ => ⟨_, rfl⟩⟩
  | some ms =>
    constructor
    · rintro ⟨ws, h⟩ ms' e
      simp only [Option.some.injEq] at e
      subst e
      obtain ⟨_, h1, -⟩ := bind_ok.1 h
      exact (forM_ok _ _).1 h1
    · intro h
      exact ⟨[], bind_ok.2 ⟨(), (forM_ok _ _).2 (h ms rfl), rfl⟩⟩

theorem enforce_iff (k : Kind) : enforceArray k = true ↔ k ≠ .dict ∧ k ≠ .tuple := by cases k <;> simp [enforceArray]

/-! ### The property -/

/-- **C140.** `check_env` accepts exactly the environments that conform: class and spaces are there, the first reset and the first step return what the documentation
demands, and (for observations that are arrays or integers) ten more steps raise nothing. -/
theorem C140_accepted (v : Env E O R A) (warn skipRender : Bool) : (∃ ws, checkEnv v warn skipRender = .ok ws) ↔ Conforms v skipRender := by
  unfold checkEnv checkSpaces Conforms
  simp only [bind_ok, pyAssert_ok, checkReturned_ok]
  constructor
  · rintro ⟨ws, _, h0, _, ⟨_, h1, _, h2, _, h3, h4⟩, e, ⟨e1, o, d, g1, g2, g3, g4⟩, w2, h5, w3, h6, -⟩
    refine ⟨h0, h1, h2, h3, h4, ?_, e1, o, e, d, g1, g2, g3, g4, ?_⟩
    · rintro rfl
      exact (checkRender_ok v warn).1 ⟨w2, by simpa [renderPart] using h5⟩
    · intro k1 k2
      unfold nanPart at h6
      rw [if_pos ((enforce_iff _).2 ⟨k1, k2⟩)] at h6
      exact (checkNan_ok ..).1 ⟨w3, h6⟩
  · rintro ⟨h0, h1, h2, h3, h4, hr, e1, o, e, d, g1, g2, g3, g4, hs⟩
    obtain ⟨w2, hw2⟩ : ∃ w2, renderPart v warn skipRender = .ok w2 := by
      cases skipRender with
      | true => exact ⟨[], rfl⟩
      | false => exact (checkRender_ok v warn).2 (hr rfl)
    obtain ⟨w3, hw3⟩ : ∃ w3, nanPart v e = .ok w3 := by
      unfold nanPart
      by_cases hk : enforceArray v.kind = true
      · rw [if_pos hk]
        exact (checkNan_ok ..).2 (hs ((enforce_iff _).1 hk).1 ((enforce_iff _).1 hk).2)
      · rw [if_neg hk]; exact ⟨[], rfl⟩
    exact ⟨_, (), h0, (), ⟨(), h1, (), h2, (), h3, h4⟩, e, ⟨e1, o, d, g1, g2, g3, g4⟩, w2, hw2, w3, hw3, rfl⟩

/-- **C140.** An environment that always behaves as documented, and which may be stepped after the end of an episode, is accepted. -/
theorem C140_good_accepted (v : Env E O R A) (warn : Bool) (h0 : v.isEnv = true ∧ v.hasObs = true ∧ v.hasAct = true ∧ v.obsIsSpace = true ∧ v.actIsSpace = true)
    (hreset : ∀ e, ∃ e' o, v.reset e = .ok (e', o) ∧ Proper v o) (hstep : ∀ e a, ∃ e' d, v.step e a = .ok (e', d) ∧ ProperData v d)
    (hfit : ∀ o, v.contains o = true → v.fits o = true) : ∃ ws, checkEnv v warn true = .ok ws := by
  rw [C140_accepted]
  obtain ⟨e1, o, g1, g2⟩ := hreset v.e0
  obtain ⟨e2, d, g3, g4⟩ := hstep e1 (v.sample 0)
  refine ⟨h0.1, h0.2.1, h0.2.2.1, h0.2.2.2.1, h0.2.2.2.2, fun h => absurd h (by simp), e1, o, e2, d, g1, g2, g3, g4, fun _ _ => ?_⟩
  have : ∀ n k e, Survives v n k e := by
    intro n
    induction n with
    | zero => exact fun k e => .stop k e
    | succ n ih =>
      intro k e
      obtain ⟨e', d, a1, a2⟩ := hstep e (v.sample k)
      cases hd : d.done with
      | false => exact .go n k e e' d a1 a2.1 hd (hfit _ a2.2.1.1) (ih _ _)
      | true =>
        obtain ⟨e'', o', b1, b2⟩ := hreset e'
        exact .ended n k e e' e'' d o' a1 a2.1 hd a2.2.2.2.2.1 b1 (hfit _ b2.1) (ih _ _)
  exact this _ _ _

/-- **C140.** Warnings never decide: `warn` has no influence on acceptance. -/
theorem C140_warn (v : Env E O R A) (skipRender : Bool) : (∃ ws, checkEnv v true skipRender = .ok ws) ↔ ∃ ws, checkEnv v false skipRender = .ok ws := by
  rw [C140_accepted, C140_accepted]

theorem checkNan_only (v : Env E O R A) : ∀ (n k : ℕ) (e : E) (warned : Bool) {ws : List Warn}, checkNan v n k e warned = .ok ws →
    (∀ w ∈ ws, w = .nan) ∧ ws.length ≤ (if warned then 0 else 1)
  | 0, k, e, warned, ws, h => by
    cases h
    simp
  | n + 1, k, e, warned, ws, h => by
    unfold checkNan at h
    simp only [bind_ok] at h
    obtain ⟨d, -, rest, h2, h3⟩ := h
    cases h3
    obtain ⟨a, b⟩ := checkNan_only v n (k + 1) d.1 _ h2
    revert b
    cases warned <;> cases v.badA (v.sample k) <;> cases (v.badO d.2.1 || v.badR d.2.2.rew) <;> intro b <;> refine ⟨?_, ?_⟩ <;> simp at b ⊢ <;> grind

theorem warnings_parts (v : Env E O R A) (warn skipRender : Bool) {ws : List Warn} (h : checkEnv v warn skipRender = .ok ws) :
    ∃ w3, ws = (if warn then spaceWarnings v else []) ++ (if warn = true ∧ skipRender = false ∧ v.renderModes = none then [.noRender] else []) ++ w3 ∧
      (∀ w ∈ w3, w = .nan) ∧ w3.length ≤ 1 := by
  unfold checkEnv at h
  simp only [bind_ok] at h
  obtain ⟨_, -, _, -, e, -, w2, h2, w3, h3, h4⟩ := h
  cases h4
  refine ⟨w3, ?_, ?_⟩
  · congr 1
    congr 1
    unfold renderPart checkRender at h2
    cases skipRender with
    | true => simp at h2; simp [h2]
    | false =>
      simp only [Bool.false_eq_true, if_false] at h2
      cases hm : v.renderModes with
      | none => rw [hm] at h2; cases warn <;> simp_all
      | some ms =>
        rw [hm] at h2
        simp only [bind_ok] at h2
        obtain ⟨_, -, h2⟩ := h2
        cases h2
        simp
  · unfold nanPart at h3
    split_ifs at h3
    · exact checkNan_only v 10 1 e false h3
    · cases h3
      simp

theorem mem_if {α : Type} (c : Prop) [Decidable c] (w a : α) : w ∈ (if c then [a] else []) ↔ w = a ∧ c := by
  split_ifs with h <;> simp [h]

theorem mem_if_list {α : Type} (c : Prop) [Decidable c] (w : α) (l : List α) : w ∈ (if c then l else []) ↔ c ∧ w ∈ l := by
  split_ifs with h <;> simp [h]

theorem mem_image (v : Env E O R A) (w : Warn) : w ∈ imageWarnings v ↔
    (w = .imageType ∧ v.uint8 = false) ∨ (w = .imageRange ∧ ¬ ∀ p ∈ v.lowHigh, p = (0, 255)) ∨ (w = .imageSize ∧ ¬ (36 ≤ v.shape.getD 0 0 ∧ 36 ≤ v.shape.getD 1 0)) := by
  unfold imageWarnings
  have e : (if v.uint8 = true then [] else [Warn.imageType]) = if v.uint8 = false then [Warn.imageType] else [] := by cases v.uint8 <;> simp
  have e2 : ((v.lowHigh.any fun p => decide (p.1 ≠ 0) || decide (p.2 ≠ 255)) = true) ↔ ¬ ∀ p ∈ v.lowHigh, p = (0, 255) := by
    simp only [List.any_eq_true, Bool.or_eq_true, decide_eq_true_eq, not_forall, Prod.ext_iff]
    constructor
    · rintro ⟨p, h1, h2⟩
      exact ⟨p, h1, fun h => by rcases h2 with h2 | h2 <;> simp_all⟩
    · rintro ⟨p, h1, h2⟩
      refine ⟨p, h1, ?_⟩
      by_cases h3 : p.1 = 0
      · exact .inr fun h4 => h2 ⟨h3, h4⟩
      · exact .inl h3
  have e3 : ((decide (v.shape.getD 0 0 < 36) || decide (v.shape.getD 1 0 < 36)) = true) ↔ ¬ (36 ≤ v.shape.getD 0 0 ∧ 36 ≤ v.shape.getD 1 0) := by
    simp only [Bool.or_eq_true, decide_eq_true_eq]
    omega
  rw [e]
  simp only [List.mem_append, mem_if, e2, e3, or_assoc]

theorem mem_space (v : Env E O R A) (w : Warn) : w ∈ spaceWarnings v ↔
    (w = .dictObs ∧ v.kind = .dict ∧ v.goal = false) ∨ (w = .tupleObs ∧ v.kind = .tuple) ∨ ((v.kind = .box ∧ v.shape.length = 3) ∧ w ∈ imageWarnings v) ∨
    (w = .oddShape ∧ v.kind = .box ∧ v.shape.length ≠ 1 ∧ v.shape.length ≠ 3) ∨
    (w = .actionRange ∧ ∃ ps, v.act = some ps ∧ ¬ ∀ p ∈ ps, (p.1 = p.2 ∨ p.1 = -p.2) ∧ -1 ≤ p.1 ∧ p.1 ≤ 1 ∧ -1 ≤ p.2 ∧ p.2 ≤ 1) := by
  have e : ∀ p : ℚ × ℚ, ((decide (|p.1| ≠ |p.2|) || decide (|p.1| > 1) || decide (|p.2| > 1)) = true) ↔ ¬ ((p.1 = p.2 ∨ p.1 = -p.2) ∧ -1 ≤ p.1 ∧ p.1 ≤ 1 ∧ -1 ≤ p.2 ∧ p.2 ≤ 1) := by
    intro p
    simp only [Bool.or_eq_true, decide_eq_true_eq]
    rw [ne_eq, abs_eq_abs, gt_iff_lt, gt_iff_lt, lt_abs, lt_abs, ← not_lt, ← not_lt, ← not_lt, ← not_lt, lt_neg]
    rw [show (p.2 < -1) = (1 < -p.2) from by rw [lt_neg]]
    tauto
  have ha : w ∈ (match v.act with
      | some ps => if ps.any fun p => decide (|p.1| ≠ |p.2|) || decide (|p.1| > 1) || decide (|p.2| > 1) then [Warn.actionRange] else []
      | none => []) ↔ w = .actionRange ∧ ∃ ps, v.act = some ps ∧ ¬ ∀ p ∈ ps, (p.1 = p.2 ∨ p.1 = -p.2) ∧ -1 ≤ p.1 ∧ p.1 ≤ 1 ∧ -1 ≤ p.2 ∧ p.2 ≤ 1 := by
    cases hv : v.act with
    | none => simp
    | some ps =>
      simp only [mem_if, List.any_eq_true, e, Option.some.injEq, exists_eq_left', not_forall, exists_prop]
  unfold spaceWarnings
  rw [List.mem_append]
  refine (or_congr Iff.rfl ha).trans ?_
  simp only [List.mem_append, mem_if_list, List.mem_singleton, Bool.and_eq_true, decide_eq_true_eq, Bool.not_eq_true', beq_iff_eq, bne_iff_ne, or_assoc]
  refine or_congr ?_ (or_congr ?_ (or_congr ?_ (or_congr ?_ Iff.rfl))) <;> constructor <;> intro h <;> simp_all

/-- **C140.** The warnings mean what they say: each one is given exactly in the situation its text describes. -/
theorem C140_warnings (v : Env E O R A) (skipRender : Bool) {ws : List Warn} (h : checkEnv v true skipRender = .ok ws) :
    (.dictObs ∈ ws ↔ v.kind = .dict ∧ v.goal = false) ∧ (.tupleObs ∈ ws ↔ v.kind = .tuple) ∧
    (.imageType ∈ ws ↔ v.kind = .box ∧ (∃ a b c, v.shape = [a, b, c]) ∧ v.uint8 = false) ∧
    (.imageRange ∈ ws ↔ v.kind = .box ∧ (∃ a b c, v.shape = [a, b, c]) ∧ ¬ ∀ p ∈ v.lowHigh, p = (0, 255)) ∧
    (.imageSize ∈ ws ↔ v.kind = .box ∧ ∃ a b c, v.shape = [a, b, c] ∧ ¬ (36 ≤ a ∧ 36 ≤ b)) ∧
    (.oddShape ∈ ws ↔ v.kind = .box ∧ v.shape.length ≠ 1 ∧ v.shape.length ≠ 3) ∧
    (.actionRange ∈ ws ↔ ∃ ps, v.act = some ps ∧ ¬ ∀ p ∈ ps, (p.1 = p.2 ∨ p.1 = -p.2) ∧ -1 ≤ p.1 ∧ p.1 ≤ 1 ∧ -1 ≤ p.2 ∧ p.2 ≤ 1) ∧
    (.noRender ∈ ws ↔ skipRender = false ∧ v.renderModes = none) ∧ ws.count .nan ≤ 1 := by
  obtain ⟨w3, hw, h1, h2⟩ := warnings_parts v true skipRender h
  have hm : ∀ w : Warn, w ≠ .nan → (w ∈ ws ↔ w ∈ spaceWarnings v ∨ (w = .noRender ∧ skipRender = false ∧ v.renderModes = none)) := by
    intro w hn
    have : w ∉ w3 := fun hm => hn (h1 w hm)
    rw [hw]
    simp only [if_true, List.mem_append, mem_if, this, or_false, true_and]
  have hs3 : (v.shape.length = 3) ↔ ∃ a b c, v.shape = [a, b, c] := List.length_eq_three
  refine ⟨?_, ?_, ?_, ?_, ?_, ?_, ?_, ?_, ?_⟩
  · rw [hm _ (by decide), mem_space, mem_image]; simp
  · rw [hm _ (by decide), mem_space, mem_image]; simp
  · rw [hm _ (by decide), mem_space, mem_image, ← hs3]; simp [and_assoc]
  · rw [hm _ (by decide), mem_space, mem_image, ← hs3]; simp [and_assoc]
  · rw [hm _ (by decide), mem_space, mem_image, hs3]
    simp only [reduceCtorEq, false_and, false_or, or_false, true_and]
    constructor
    · rintro ⟨⟨hk, a, b, c, e⟩, h3⟩
      rw [e] at h3
      exact ⟨hk, a, b, c, e, h3⟩
    · rintro ⟨hk, a, b, c, e, h3⟩
      refine ⟨⟨hk, a, b, c, e⟩, ?_⟩
      rw [e]
      exact h3
  · rw [hm _ (by decide), mem_space, mem_image]; simp
  · rw [hm _ (by decide), mem_space, mem_image]
    simp only [reduceCtorEq, false_and, false_or, or_false, true_and, and_false]
  · rw [hm _ (by decide), mem_space, mem_image]; simp
  · rw [hw, List.count_append]
    have e1 : List.count Warn.nan ((if true = true then spaceWarnings v else []) ++ (if true = true ∧ skipRender = false ∧ v.renderModes = none then [Warn.noRender] else [])) = 0 := by
      rw [List.count_eq_zero, List.mem_append, not_or, if_pos rfl, mem_space, mem_image, mem_if]
      simp
    rw [e1]
    have := List.count_le_length (a := Warn.nan) (l := w3)
    omega

/-- **C140.** With `warn=False` nothing but the warning about `nan` and `inf` remains, at most once. -/
theorem C140_silent (v : Env E O R A) (skipRender : Bool) {ws : List Warn} (h : checkEnv v false skipRender = .ok ws) : ws = [] ∨ ws = [.nan] := by
  obtain ⟨w3, hw, h1, h2⟩ := warnings_parts v false skipRender h
  simp only [Bool.false_eq_true, if_false, false_and, List.append_nil, List.nil_append] at hw
  subst hw
  match ws, h1, h2 with
  | [], _, _ => exact .inl rfl
  | [w], h1, _ => exact .inr (by rw [h1 w (by simp)])
  | _ :: _ :: _, _, h2 => simp at h2

/-- **C140, defect.** The check for `nan` and `inf` refuses nothing: which values are bad makes no difference to acceptance. -/
theorem C140_nan_accepted (v : Env E O R A) (badO : O → Bool) (badR : R → Bool) (badA : A → Bool) (warn skipRender : Bool) :
    (∃ ws, checkEnv v warn skipRender = .ok ws) ↔ ∃ ws, checkEnv { v with badO := badO, badR := badR, badA := badA } warn skipRender = .ok ws := by
  rw [C140_accepted, C140_accepted]
  have hs : ∀ n k e, Survives v n k e ↔ Survives { v with badO := badO, badR := badR, badA := badA } n k e := by
    intro n k e
    constructor
    · intro h
      induction h with
      | stop k e => exact .stop k e
      | go n k e e' d a1 a2 a3 a4 _ ih => exact .go n k e e' d a1 a2 a3 a4 ih
      | ended n k e e' e'' d o a1 a2 a3 a4 a5 a6 _ ih => exact .ended n k e e' e'' d o a1 a2 a3 a4 a5 a6 ih
    · intro h
      induction h with
      | stop k e => exact .stop k e
      | go n k e e' d a1 a2 a3 a4 _ ih => exact .go n k e e' d a1 a2 a3 a4 ih
      | ended n k e e' e'' d o a1 a2 a3 a4 a5 a6 _ ih => exact .ended n k e e' e'' d o a1 a2 a3 a4 a5 a6 ih
  unfold Conforms
  constructor
  · rintro ⟨h0, h1, h2, h3, h4, hr, e1, o, e, d, g1, g2, g3, g4, g5⟩
    exact ⟨h0, h1, h2, h3, h4, hr, e1, o, e, d, g1, g2, g3, g4, fun a b => (hs _ _ _).1 (g5 a b)⟩
  · rintro ⟨h0, h1, h2, h3, h4, hr, e1, o, e, d, g1, g2, g3, g4, g5⟩
    exact ⟨h0, h1, h2, h3, h4, hr, e1, o, e, d, g1, g2, g3, g4, fun a b => (hs _ _ _).2 (g5 a b)⟩

/-- **C140, defect.** After the first step the environment is stepped on without a reset even if the episode has ended: an environment that rightly refuses to be
stepped after the end and whose episode ends at once is refused. -/
theorem C140_stepped_after_end (v : Env E O R A) (warn skipRender : Bool) {e1 e2 : E} {o : O} {d : Data O R} (hk : v.kind ≠ .dict ∧ v.kind ≠ .tuple)
    (h1 : v.reset v.e0 = .ok (e1, o)) (h2 : v.step e1 (v.sample 0) = .ok (e2, d)) (hd : d.done = true) {err : PyErr} (hend : ∀ a, v.step e2 a = .error err) :
    ¬ ∃ ws, checkEnv v warn skipRender = .ok ws := by
  rw [C140_accepted]
  rintro ⟨-, -, -, -, -, -, e1', o', e2', d', g1, -, g3, -, g5⟩
  rw [h1] at g1
  cases g1
  rw [h2] at g3
  cases g3
  have := g5 hk.1 hk.2
  cases this with
  | go _ _ _ _ _ h => rw [hend] at h; cases h
  | ended _ _ _ _ _ _ _ h => rw [hend] at h; cases h

/-- **C140, defect.** Numpy scalars are refused where the rest of the library takes them: a signal of type `np.bool_`, a reward of type `np.float32`, an integer observation
of a numpy type. -/
theorem C140_numpy_refused (v : Env E O R A) (warn skipRender : Bool) {e1 e2 : E} {o : O} {d : Data O R} (h1 : v.reset v.e0 = .ok (e1, o)) (h2 : v.step e1 (v.sample 0) = .ok (e2, d))
    (h : d.doneTy = .npBool ∨ d.rewTy = .npFloat32 ∨ (v.kind = .discrete ∧ v.ty o = .npInt)) : ¬ ∃ ws, checkEnv v warn skipRender = .ok ws := by
  rw [C140_accepted]
  rintro ⟨-, -, -, -, -, -, e1', o', e2', d', g1, g2, g3, g4, -⟩
  rw [h1] at g1
  cases g1
  rw [h2] at g3
  cases g3
  obtain ⟨-, -, a3, a4, -⟩ := g4
  rcases h with h | h | ⟨hk, h⟩
  · rw [h] at a4; cases a4
  · rw [h] at a3; simp at a3
  · have := g2.2
    rw [hk, h] at this
    simp at this

/-! ### Examples -/

/-- A counter from 0 with observations 0..3; an episode ends at 3. Observation 9 stands for a value outside the space. -/
def exEnv (bad : ℕ) : Env ℕ ℕ ℚ Unit :=
  { isEnv := true, hasObs := true, hasAct := true, obsIsSpace := true, actIsSpace := true, goal := false, kind := .box, contains := fun o => decide (o ≤ 3),
    ty := fun _ => .ndarray, shape := [1], uint8 := false, lowHigh := [(0, 3)], act := none, renderModes := none, render := fun _ => .ok (), e0 := 0,
    reset := fun _ => .ok (0, 0),
    step := fun e _ => .ok (e + 1, { len := 4, obs := if e = bad then 9 else e + 1, rew := 1, rewTy := .float, done := decide (3 ≤ e + 1), doneTy := .bool, infoTy := .dict }),
    sample := fun _ => (), goalOK := fun _ => true, fits := fun _ => true, badO := fun _ => false, badR := fun _ => false, badA := fun _ => false }

example : checkEnv (exEnv 50) true false = .ok [.noRender] := by decide +kernel

/-- **C140, defect.** Only the first step is compared with the declared space: an environment whose second observation lies outside is accepted, without a warning. -/
theorem C140_first_step_only : checkEnv (exEnv 1) true true = .ok [] ∧ ∃ e d, (exEnv 1).step 1 () = .ok (e, d) ∧ ¬ Proper (exEnv 1) d.obs := by
  refine ⟨by decide +kernel, _, _, rfl, ?_⟩
  intro h
  have := h.1
  simp [exEnv] at this

/-- The check does see a wrong first observation. -/
example : checkEnv (exEnv 0) true true = .error .assertion := by decide +kernel

/-- An environment with episodes of one step that refuses to be stepped after the end. -/
def exOnce : Env Bool ℕ ℚ Unit :=
  { isEnv := true, hasObs := true, hasAct := true, obsIsSpace := true, actIsSpace := true, goal := false, kind := .box, contains := fun _ => true,
    ty := fun _ => .ndarray, shape := [1], uint8 := false, lowHigh := [(0, 3)], act := none, renderModes := none, render := fun _ => .ok (), e0 := false,
    reset := fun _ => .ok (true, 0),
    step := fun e _ => if e then .ok (false, { len := 4, obs := 1, rew := 1, rewTy := .float, done := true, doneTy := .bool, infoTy := .dict }) else .error .runtimeError,
    sample := fun _ => (), goalOK := fun _ => true, fits := fun _ => true, badO := fun _ => false, badR := fun _ => false, badA := fun _ => false }

example : checkEnv exOnce true true = .error .runtimeError := by decide +kernel

end Neorl.EnvCheck
