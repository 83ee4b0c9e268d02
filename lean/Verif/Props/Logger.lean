import Verif.Logger
import Verif.Props.Env

/-!
# Property theorems C75: the logger of the RL agents
-/

set_option linter.unusedSectionVars false
set_option linter.unusedVariables false

namespace Neorl.Logger

section
variable {K : Type} [Field K] [LinearOrder K] [IsStrictOrderedRing K] {X : Type}

/-- **C75.** What the logger has recorded after a training run: entry `i` of the histories belongs to call `(i + 1) * check_freq` — the individual of the
first environment and its reward, with the sign of the user's fitness — and nothing else is recorded. -/
theorem C75_history {c : Conf} (hf : 0 < c.freq) {l : List (List (K × X))} {s : Log X K} (h : feed c l init = .ok s) :
    s.calls = l.length ∧ s.xhist.length = l.length / c.freq ∧ s.rhist.length = l.length / c.freq ∧
    ∀ i : ℕ, i < l.length / c.freq → ∃ r x rest, l[(i + 1) * c.freq - 1]? = some ((r, x) :: rest) ∧ s.xhist[i]? = some x ∧
      s.rhist[i]? = some (if c.minMode then -r else r) := by
  have hi := inv_feed hf h
  refine ⟨hi.calls, hi.nx, hi.nr, fun i hlt => ?_⟩
  have h1 := hi.hx i
  have h2 := hi.hr i
  rw [List.getElem?_eq_getElem (by rw [hi.nx]; exact hlt)] at h1
  cases e : l[(i + 1) * c.freq - 1]? with
  | none => rw [e] at h1; cases h1
  | some es =>
    rw [e] at h1 h2
    cases es with
    | nil => cases h1
    | cons p rest =>
      obtain ⟨r, x⟩ := p
      refine ⟨r, x, rest, rfl, ?_, ?_⟩
      · rw [hi.hx i, e]; rfl
      · rw [hi.hr i, e]; rfl

/-- **C75, best.** `xbest`/`rbest` are the first recorded individual with the best recorded fitness; before the first record they are unset.  With
`save_model` and `save_best_only` the network on disk is the one of that very call. -/
theorem C75_best {c : Conf} (hf : 0 < c.freq) {l : List (List (K × X))} {s : Log X K} (h : feed c l init = .ok s) :
    (l.length < c.freq → s.xbest = none ∧ s.rbest = none ∧ s.xhist = []) ∧
    (c.freq ≤ l.length → ∃ (i : ℕ) (x : X) (y : K), s.xhist[i]? = some x ∧ s.rhist[i]? = some y ∧ s.xbest = some x ∧ s.rbest = some y ∧
      (∀ z ∈ s.rhist, NotWorse c.minMode z y) ∧ (∀ (j : ℕ) z, j < i → s.rhist[j]? = some z → z ≠ y) ∧
      (c.save = true → c.bestOnly = true → s.saved.getLast? = some ((i + 1) * c.freq))) := by
  have hi := inv_feed hf h
  refine ⟨fun hl => ?_, fun hl => ?_⟩
  · have h0 : s.xhist = [] := List.eq_nil_of_length_eq_zero (by rw [hi.nx, Nat.div_eq_of_lt hl])
    rcases hi.best with ⟨h1, h2, h3, h4⟩ | ⟨i, x, y, h1, _⟩
    · exact ⟨h2, h3, h1⟩
    · rw [h0] at h1; cases h1
  · rcases hi.best with ⟨h1, h2, h3, h4⟩ | ⟨i, x, y, h1, h2, h3, h4, h5, h6, h7, h8⟩
    · have := hi.nx
      rw [h1] at this
      have hp := Nat.div_pos hl hf
      rw [← this] at hp
      exact absurd hp (by simp)
    · refine ⟨i, x, y, h1, h2, h3, h4, fun z hz => ?_, h7, h8⟩
      obtain ⟨j, hj⟩ := List.mem_iff_getElem?.1 hz
      exact h6 j z hj

/-- **C75, saving.** Without `save_model` nothing is written; with `save_best_only=False` the network is written exactly at the recorded calls. -/
theorem C75_saving {c : Conf} (hf : 0 < c.freq) {l : List (List (K × X))} {s : Log X K} (h : feed c l init = .ok s) :
    (c.save = false → s.saved = []) ∧
    (c.save = true → c.bestOnly = false → s.saved = (List.range (l.length / c.freq)).map (fun i => (i + 1) * c.freq)) :=
  ⟨(inv_feed hf h).noSave, (inv_feed hf h).allSave⟩

/-- **C75, mode.** With the mode taken from the environment, the best reward is the least one recorded if the mode is `min`, and the greatest one if it
is `max`, missing or anything else. -/
theorem C75_mode {mo : Option String} {c : Conf} (hc : c.minMode = initMode mo) (hf : 0 < c.freq) {l : List (List (K × X))} {s : Log X K}
    (h : feed c l init = .ok s) (hl : c.freq ≤ l.length) :
    ∃ y, s.rbest = some y ∧ y ∈ s.rhist ∧ (mo = some "min" → ∀ z ∈ s.rhist, y ≤ z) ∧ (mo ≠ some "min" → ∀ z ∈ s.rhist, z ≤ y) := by
  obtain ⟨i, x, y, h1, h2, h3, h4, h5, _⟩ := (C75_best hf h).2 hl
  refine ⟨y, h4, List.mem_of_getElem? h2, fun hm z hz => ?_, fun hm z hz => ?_⟩
  · have := h5 z hz
    rw [hc, initMode, decide_eq_true hm] at this
    simpa [NotWorse] using this
  · have := h5 z hz
    rw [hc, initMode, decide_eq_false hm] at this
    simpa [NotWorse] using this

/-- **C75, no exception.** With a positive frequency and at least one environment the logger never raises; with frequency zero the first call does. -/
theorem C75_total {c : Conf} (l : List (List (K × X))) (hl : ∀ e ∈ l, e ≠ []) (s : Log X K) :
    (0 < c.freq → ∃ s', feed c l s = .ok s') ∧ (c.freq = 0 → l ≠ [] → feed c l s = .error .zeroDivision) := by
  constructor
  · intro hf
    induction l generalizing s with
    | nil => exact ⟨s, rfl⟩
    | cons e l ih =>
      simp only [feed]
      have : ∃ s', onStep c e s = .ok s' := by
        unfold onStep
        dsimp only
        rw [if_neg (by omega)]
        split_ifs
        · cases e with
          | nil => exact absurd rfl (hl [] (by simp))
          | cons p es => exact ⟨_, rfl⟩
        · exact ⟨_, rfl⟩
      obtain ⟨s', hs⟩ := this
      rw [hs]
      exact ih (fun e he => hl e (by simp [he])) s'
  · intro hf hne
    cases l with
    | nil => exact absurd rfl hne
    | cons e l => simp [feed, onStep, hf]

/-- **C75, parallel environments.** Only the first environment is looked at: two runs that agree on it leave the same log, whatever the other
environments found. -/
theorem C75_first_env_only {c : Conf} {l l' : List (List (K × X))} (h : l.map List.head? = l'.map List.head?) (s : Log X K) :
    feed c l s = feed c l' s := by
  induction l generalizing l' s with
  | nil => cases l' <;> simp_all
  | cons e l ih =>
    cases l' with
    | nil => simp at h
    | cons e' l' =>
      simp only [List.map_cons, List.cons.injEq] at h
      have : onStep c e s = onStep c e' s := by
        unfold onStep
        dsimp only
        cases e <;> cases e' <;> simp_all
      simp only [feed, this]
      cases onStep c e' s with
      | error => rfl
      | ok s' => exact ih h.2 s'

end

section
variable {K : Type} [Field K] [LinearOrder K] [IsStrictOrderedRing K] [FloorRing K]

/-- **C75, with the environment.** A logger that watches every step of a NEORL environment holds the individuals with their fitness — the user's fitness,
in both modes —, all of them members of the user's space, and `xbest`, `rbest` are the best of them. -/
theorem C75_with_environment {e : Env.Conf K} (hS : e.S.OK) (hk : (e.orig.map Prod.fst).Nodup) {fit : List (Val K) → K} {smp : List K} {s0 : Env.State K}
    (hsmp : e.method = .value → e.S.Feasible smp) (h0 : Env.init e smp = .ok s0) {ops : List (Env.Op K)} (hops : ∀ o ∈ ops, Env.OpOK e o)
    {s1 : Env.State K} {outs : List (Env.Out K)} (hx : Env.exec e fit s0 ops = .ok (s1, outs)) {c : Conf} (hf : c.freq = 1) (hm : c.minMode = e.minMode)
    {s : Log (List (Val K)) K} (h : feed c (outs.map fun o => [(o.reward, o.x)]) init = .ok s) :
    s.xhist = outs.map (fun o => o.x) ∧ s.rhist = s.xhist.map fit ∧ (∀ x ∈ s.xhist, InSpace e.orig x) ∧
    (outs ≠ [] → ∃ x y, s.xbest = some x ∧ s.rbest = some y ∧ IsBest e.minMode fit s.xhist x y) := by
  have hi := inv_feed (by omega) h
  have hF := Env.C46_feasible hS hk hsmp h0 hops hx
  have hX : s.xhist = outs.map (fun o => o.x) := by
    apply List.ext_getElem?
    intro i
    rw [hi.hx i, hf]
    simp only [Nat.mul_one, Nat.add_sub_cancel, List.getElem?_map]
    cases outs[i]? <;> rfl
  have hR : s.rhist = s.xhist.map fit := by
    rw [hX]
    apply List.ext_getElem?
    intro i
    rw [hi.hr i, hf]
    simp only [Nat.mul_one, Nat.add_sub_cancel, List.getElem?_map]
    cases ho : outs[i]? with
    | none => rfl
    | some o =>
      have := (hF o (List.mem_of_getElem? ho)).2.2.2
      simp only [Option.map_some, Option.bind_some, List.head?_cons, hm, this]
      cases e.minMode <;> simp
  refine ⟨hX, hR, ?_, fun hne => ?_⟩
  · intro x hx'
    rw [hX] at hx'
    obtain ⟨o, ho, rfl⟩ := List.mem_map.1 hx'
    exact (hF o ho).2.2.1
  · obtain ⟨_, hb⟩ := C75_best (by omega) h
    obtain ⟨i, x, y, h1, h2, h3, h4, h5, _⟩ := hb (by rw [hf, List.length_map]; exact List.length_pos_iff.2 hne)
    refine ⟨x, y, h3, h4, List.mem_of_getElem? h1, ?_, ?_⟩
    · rw [hR, List.getElem?_map, h1] at h2
      cases h2; rfl
    · intro z hz
      rw [← hm]
      exact h5 _ (by rw [hR]; exact List.mem_map.2 ⟨z, hz, rfl⟩)

end

/-! ### Examples -/

def exC : Conf := { minMode := true, freq := 2, save := true, bestOnly := true }

def exSteps : List (List (ℚ × List ℚ)) := [[(-1, [1])], [(-4, [4]), (-1 / 2, [9])], [(-3, [3])], [(-2, [2])], [(0, [0])], [(-2, [5])], [(9, [7])]]

/-- Every second call is kept; the best is the first of two equal ones; the network was last saved at call 4. -/
example : (match feed exC exSteps init with
    | .ok s => decide (s.xhist = [[4], [2], [5]] ∧ s.rhist = [4, 2, 2] ∧ s.xbest = some [2] ∧ s.rbest = some 2 ∧ s.saved = [2, 4] ∧ s.calls = 7)
    | .error _ => false) = true := by decide +kernel

example : initMode (some "min") = true ∧ initMode none = false ∧ initMode (some "x") = false := by decide

/-- The best individual of the whole run was seen by the second environment (fitness 1/2) and is nowhere in the log. -/
theorem C75_parallel_loses : ∃ (c : Conf) (l : List (List (ℚ × List ℚ))) (s : Log (List ℚ) ℚ), c.freq = 1 ∧ c.minMode = true ∧ feed c l init = .ok s ∧
    (∃ e ∈ l, (-1 / 2, [9]) ∈ e) ∧ s.rbest = some 2 ∧ [9] ∉ s.xhist := by
  refine ⟨{ minMode := true, freq := 1, save := false, bestOnly := true }, [[(-4, [4]), (-1 / 2, [9])], [(-2, [2]), (-3, [3])]], _, rfl, rfl, rfl, ?_, ?_, ?_⟩
  · exact ⟨_, List.mem_cons_self, by decide +kernel⟩
  · decide +kernel
  · decide +kernel

end Neorl.Logger
