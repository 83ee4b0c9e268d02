import Verif.TrajSeg
import Mathlib.Tactic.Linarith

/-!
# Property theorems C150: trajectory segments
-/

set_option linter.unusedSectionVars false
set_option linter.unusedVariables false

namespace Neorl.TrajSeg
open Neorl

section
variable {E O A P K : Type} [Ring K]

/-- **C150, segments.** As long as the callback does not object, the generator yields, one after the other, exactly the segments of the trajectory: segment `j`
holds steps `j * h`, …, `j * h + h - 1` of an agent that is never interrupted, the episodes that end in them, the value of the observation that follows
(nothing if the last step ends an episode) and the number `h`. -/
theorem C150_segments {y : Sys E O A P K} {hasGiver hasCb : Bool} (hg : y.gail = true → hasGiver = true) (hcb : hasCb = true) {h : ℕ} (h0 : 0 < h) (e0 : E) (a0 : A)
    (p0 : P) {n : ℕ} (hc : ∀ k, k ≤ n → y.cont k = true) :
    generate y hasGiver hasCb h e0 a0 p0 (n + 1) = .ok ((List.range (n / h)).map (segAt y e0 p0 h)) := by
  obtain ⟨s, h1, inv⟩ := turns_inv h0 e0 a0 p0 (n := n + 1) (fun k hk => hc k (by omega))
  have hg' : (y.gail && !hasGiver) = false := by
    cases hy : y.gail
    · rfl
    · simp [hg hy]
  unfold generate
  rw [hg', hcb, h1, inv.segs]
  simp [Nat.pos_iff_ne_zero.1 h0]

/-- The history of a list of segments. -/
def flatPre (l : List (Seg O A K)) : List (Pre O A K) := (l.map Seg.pre).flatten
def flatPost (l : List (Seg O A K)) : List (Post K) := (l.map Seg.post).flatten
def flatEps (l : List (Seg O A K)) : List (Ep K) := (l.map Seg.eps).flatten

theorem flatten_blocks {α : Type} (f : ℕ → α) (h : ℕ) : ∀ b : ℕ, (((List.range b).map fun j => (List.range' (j * h) h).map f).flatten) = (List.range (b * h)).map f
  | 0 => by simp
  | b + 1 => by
    rw [List.range_succ, List.map_append, List.flatten_append, flatten_blocks f h b, Nat.add_mul, Nat.one_mul, List.range_add, List.map_append]
    simp [List.range'_eq_map_range]

/-- **C150, nothing lost, nothing twice.** Put end to end, the segments are the trajectory: its steps in order, and every episode that has ended, once. -/
theorem C150_cover {y : Sys E O A P K} {hasGiver hasCb : Bool} (hg : y.gail = true → hasGiver = true) (hcb : hasCb = true) {h : ℕ} (h0 : 0 < h) (e0 : E) (a0 : A)
    (p0 : P) {n : ℕ} (hc : ∀ k, k ≤ n → y.cont k = true) :
    ∃ l, generate y hasGiver hasCb h e0 a0 p0 (n + 1) = .ok l ∧ l.length = n / h ∧
      flatPre l = (List.range (n / h * h)).map (preAt y e0 p0 h) ∧ flatPost l = (List.range (n / h * h)).map (postAt y e0 p0) ∧
      flatEps l = ((List.range (n / h * h)).filter (doneAt y e0 p0)).map (epAt y e0 p0) := by
  refine ⟨_, C150_segments hg hcb h0 e0 a0 p0 hc, by simp, ?_, ?_, ?_⟩
  · unfold flatPre
    rw [List.map_map, ← flatten_blocks]; rfl
  · unfold flatPost
    rw [List.map_map, ← flatten_blocks]; rfl
  · unfold flatEps
    have := flatten_blocks id h (n / h)
    rw [List.map_id] at this
    rw [List.map_map, ← this, List.filter_flatten, List.map_flatten, List.map_map, List.map_map]
    congr 1
    apply List.map_congr_left
    intro j _
    simp [segAt, epsIn]

/-- **C150, the length of the segments does not matter.** Segments of two lengths that cover the same number of steps report the same observations, actions,
episode starts, rewards, ends and episodes; only the values of observations that open a segment may differ. -/
theorem C150_horizon {y : Sys E O A P K} {hasGiver hasCb : Bool} (hg : y.gail = true → hasGiver = true) (hcb : hasCb = true) {h h' : ℕ} (h0 : 0 < h) (h0' : 0 < h')
    (e0 : E) (a0 a0' : A) (p0 : P) {n n' : ℕ} (hc : ∀ k, y.cont k = true) (hn : n / h * h = n' / h' * h') :
    ∃ l l', generate y hasGiver hasCb h e0 a0 p0 (n + 1) = .ok l ∧ generate y hasGiver hasCb h' e0 a0' p0 (n' + 1) = .ok l' ∧
      (flatPre l).map (fun p => (p.obs, p.act, p.start)) = (flatPre l').map (fun p => (p.obs, p.act, p.start)) ∧ flatPost l = flatPost l' ∧
      flatEps l = flatEps l' ∧
      ∀ (k : ℕ) p p', (flatPre l)[k]? = some p → (flatPre l')[k]? = some p' → ¬ h ∣ k → ¬ h' ∣ k → p.vpred = p'.vpred := by
  obtain ⟨l, h1, _, h2, h3, h4⟩ := C150_cover hg hcb h0 e0 a0 p0 (n := n) (fun k _ => hc k)
  obtain ⟨l', h1', _, h2', h3', h4'⟩ := C150_cover hg hcb h0' e0 a0' p0 (n := n') (fun k _ => hc k)
  refine ⟨l, l', h1, h1', ?_, by rw [h3, h3', hn], by rw [h4, h4', hn], ?_⟩
  · rw [h2, h2', hn, List.map_map, List.map_map]; rfl
  · intro k p p' hp hp' hk hk'
    rw [h2, List.getElem?_map] at hp
    rw [h2', List.getElem?_map, ← hn] at hp'
    cases hr : (List.range (n / h * h))[k]? with
    | none => rw [hr] at hp; cases hp
    | some j =>
      have hj : j = k := by
        obtain ⟨_, e⟩ := List.getElem?_eq_some_iff.1 hr
        rw [← e]; simp
      subst hj
      rw [hr] at hp hp'
      cases hp
      cases hp'
      simp only [preAt]
      rw [if_neg (fun c => hk (Nat.dvd_of_mod_eq_zero c.2)), if_neg (fun c => hk' (Nat.dvd_of_mod_eq_zero c.2))]

/-- **C150, an episode.** The episode reported for a step `k` that ends one runs from a step `a`, the first of the run or one right after an end, to `k` with no
end in between; its length is the number of these steps, its return the sum of their rewards unless the environment is monitored, in which case it is the
monitor's figure (with a reward giver only for the true return). -/
theorem C150_episode (y : Sys E O A P K) (e0 : E) (p0 : P) (k : ℕ) :
    ∃ a ≤ k, (a = 0 ∨ doneAt y e0 p0 (a - 1) = true) ∧ (∀ j, a ≤ j → j < k → doneAt y e0 p0 j = false) ∧ (epAt y e0 p0 k).len = k + 1 - a ∧
      (infoAt y e0 p0 k = none → (epAt y e0 p0 k).ret = ∑ j ∈ Finset.Ico a (k + 1), rewAt y e0 p0 j ∧
        (epAt y e0 p0 k).tru = ∑ j ∈ Finset.Ico a (k + 1), truAt y e0 p0 j) ∧
      (∀ r, infoAt y e0 p0 k = some r → (epAt y e0 p0 k).tru = r ∧
        (epAt y e0 p0 k).ret = if y.gail then ∑ j ∈ Finset.Ico a (k + 1), rewAt y e0 p0 j else r) := by
  refine ⟨begin_ y e0 p0 k, begin_le y e0 p0 k, ?_, ?_, rfl, ?_, ?_⟩
  · induction k with
    | zero => exact .inl rfl
    | succ k ih =>
      unfold begin_
      split
      · rename_i hd; exact .inr hd
      · exact ih
  · induction k with
    | zero => intro j _ hj; omega
    | succ k ih =>
      intro j hj hk
      unfold begin_ at hj
      split at hj
      · omega
      · rename_i hd
        by_cases hjk : j = k
        · subst hjk; simpa using hd
        · exact ih j hj (by omega)
  · intro hi
    simp [epAt, hi]
  · intro r hi
    simp [epAt, hi]

theorem turns_stopped {y : Sys E O A P K} {h : ℕ} {s0 : St E O A P K} {n : ℕ} {s : St E O A P K} (hs : turns y h s0 n = (s, true)) :
    ∀ m, turns y h s0 (n + m) = (s, true)
  | 0 => hs
  | m + 1 => by
    rw [← Nat.add_assoc]
    unfold turns
    rw [turns_stopped hs m]

/-- **C150, stopping.** If the callback objects for the first time in step `n` the generator yields the full segments before it and one more, then nothing. The
last segment says that training ends, counts `n % h` steps and lists the episodes that ended in them. Its arrays hold these steps; step `n` is there with its
observation and action but with no reward; everything after is left from the segment before, and the value
reported as that of the next observation is the one of step `n` itself. -/
theorem C150_stop {y : Sys E O A P K} {hasGiver hasCb : Bool} (hg : y.gail = true → hasGiver = true) (hcb : hasCb = true) {h : ℕ} (h0 : 0 < h) (e0 : E) (a0 : A)
    (p0 : P) {n : ℕ} (hc : ∀ k, k < n → y.cont k = true) (hs : y.cont n = false) :
    ∃ last : Seg O A K, (∀ m, generate y hasGiver hasCb h e0 a0 p0 (n + 1 + m) = .ok ((List.range (n / h)).map (segAt y e0 p0 h) ++ [last])) ∧
      last.go = false ∧ last.total = n % h ∧ last.eps = epsIn y e0 p0 (n / h * h) (n % h) ∧ last.pre.length = h ∧ last.post.length = h ∧
      (∀ j, j ≤ n % h → last.pre[j]? = some (preAt y e0 p0 h (n / h * h + j))) ∧
      (∀ j, j < n % h → last.post[j]? = some (postAt y e0 p0 (n / h * h + j))) ∧
      (h ≤ n → (∀ j, n % h < j → j < h → last.pre[j]? = some (preAt y e0 p0 h (n / h * h - h + j))) ∧
        ∀ j, n % h ≤ j → j < h → last.post[j]? = some (postAt y e0 p0 (n / h * h - h + j))) ∧
      (n < h → ∀ j, n ≤ j → j < h → last.post[j]? = some ⟨0, 0, false⟩) ∧
      last.nextv = if firstAt y e0 p0 n then 0 else (preAt y e0 p0 h n).vpred := by
  obtain ⟨s, h1, inv⟩ := turns_inv h0 e0 a0 p0 (n := n) hc
  have hb : (n - 1) / h = 0 ∨ (n - 1) / h * h < n := by
    by_cases hn : n = 0
    · left; subst hn; simp
    · right; exact (Nat.div_mul_le_self (n - 1) h).trans_lt (by omega)
  obtain ⟨i1, hk⟩ := flush_inv h0 inv hb
  obtain ⟨b1, b2⟩ := body_stop inv hs
  have hmod : n % h = n - n / h * h := by have := Nat.div_add_mod n h; rw [Nat.mul_comm] at this; omega
  have hlt : n % h < h := Nat.mod_lt _ h0
  have hlo := i1.lo
  have ht : turns y h (init y h e0 a0 p0) (n + 1) = ((body y h s).1, true) := by
    unfold turns
    rw [h1]
    exact Prod.ext rfl b1
  have hg' : (y.gail && !hasGiver) = false := by
    cases hy : y.gail
    · rfl
    · simp [hg hy]
  have hpre : ∀ j, (mid y h e0 p0 n s).pre[j]? = if n % h = j then (if n % h < h then some (preAt y e0 p0 h n) else none) else
      (flush h (valAt y e0 p0 n) s).pre[j]? := by
    intro j
    show ((flush h (valAt y e0 p0 n) s).pre.set (n % h) (preAt y e0 p0 h n))[j]? = _
    rw [List.getElem?_set, i1.preLen]
  refine ⟨mkSeg (mid y h e0 p0 n s) (preAt y e0 p0 h n).vpred false, ?_, rfl, ?_, ?_, ?_, ?_, ?_, ?_, ?_, ?_, ?_⟩
  · intro m
    unfold generate
    rw [hg', hcb, turns_stopped ht m, b2, i1.segs]
    simp [Nat.pos_iff_ne_zero.1 h0]
  · have := i1.itLen
    show (flush h (valAt y e0 p0 n) s).itLen = _
    omega
  · have := i1.eps
    show (flush h (valAt y e0 p0 n) s).eps = _
    rw [this, hmod]
  · show (((flush h (valAt y e0 p0 n) s).pre.set (n % h) (preAt y e0 p0 h n))).length = h
    rw [List.length_set, i1.preLen]
  · exact i1.postLen
  · intro j hj
    show (mid y h e0 p0 n s).pre[j]? = _
    rw [hpre]
    by_cases e : n % h = j
    · rw [if_pos e, if_pos hlt, ← e, show n / h * h + n % h = n by omega]
    · rw [if_neg e]; exact i1.preNew j (by omega)
  · intro j hj
    exact i1.postNew j (by omega)
  · intro hn
    have hne : n / h ≠ 0 := (Nat.div_pos hn h0).ne'
    refine ⟨fun j hj hjh => ?_, fun j hj hjh => ?_⟩
    · show (mid y h e0 p0 n s).pre[j]? = _
      rw [hpre, if_neg (by omega), i1.preOld j hjh (by omega), if_neg hne]
    · have := i1.postOld j hjh (by omega)
      rw [if_neg hne] at this
      exact this
  · intro hn j hj hjh
    have hz : n / h = 0 := Nat.div_eq_of_lt hn
    have := i1.postOld j hjh (by rw [hz]; omega)
    rw [if_pos hz] at this
    refine this.trans ?_
    simp [init, hjh]
  · have : (mid y h e0 p0 n s).start = firstAt y e0 p0 n := i1.start
    simp only [mkSeg, this]
    cases firstAt y e0 p0 n <;> simp

/-- **C150, refusals.** A reward giver is demanded when imitating; a missing callback is an error although a later line provides for it; segments of no steps are
an error in the first turn. -/
theorem C150_errors (y : Sys E O A P K) (hasGiver hasCb : Bool) (h : ℕ) (e0 : E) (a0 : A) (p0 : P) (n : ℕ) :
    (y.gail = true → hasGiver = false → generate y hasGiver hasCb h e0 a0 p0 n = .error .assertion) ∧
    ((y.gail = true → hasGiver = true) → hasCb = false → generate y hasGiver hasCb h e0 a0 p0 n = .error .attributeError) ∧
    ((y.gail = true → hasGiver = true) → hasCb = true → generate y hasGiver hasCb 0 e0 a0 p0 (n + 1) = .error .zeroDivision) := by
  refine ⟨fun h1 h2 => ?_, fun h1 h2 => ?_, fun h1 h2 => ?_⟩
  · simp [generate, h1, h2]
  · have : (y.gail && !hasGiver) = false := by
      cases hy : y.gail
      · rfl
      · simp [h1 hy]
    simp [generate, this, h2]
  · have : (y.gail && !hasGiver) = false := by
      cases hy : y.gail
      · rfl
      · simp [h1 hy]
    simp [generate, this, h2]

end

/-- A counter that ends every third step; the policy adds its own state to the observation. -/
def exSys (stop : ℕ) : Sys ℕ ℕ ℕ ℕ ℚ where
  reset e := (0, 10)
  estep e a := (e + 1, e + 1, (a : ℚ), decide (e + 1 = 3), if a % 2 = 0 then some 100 else none)
  pol k o p d := (o + p, (k : ℚ), if d then 0 else p + 1)
  val k o := -(o : ℚ) - 1
  clip a := min a 10
  giver o a := 0
  gail := false
  vec := false
  cont k := decide (k ≠ stop)

/-- Two segments of four steps. -/
example : generate (exSys 100) false true 4 0 0 0 9 = .ok
    [⟨[⟨10, 0, 10, true⟩, ⟨1, 1, 2, false⟩, ⟨2, 2, 4, false⟩, ⟨10, 3, 13, true⟩], [⟨10, 10, false⟩, ⟨2, 2, false⟩, ⟨4, 4, true⟩, ⟨10, 10, false⟩], 4,
        [⟨100, 100, 3⟩], 4, true⟩,
     ⟨[⟨1, -2, 1, false⟩, ⟨2, 5, 3, false⟩, ⟨10, 6, 12, true⟩, ⟨1, 7, 1, false⟩], [⟨1, 1, false⟩, ⟨3, 3, true⟩, ⟨10, 10, false⟩, ⟨1, 1, false⟩], 8,
        [⟨14, 14, 3⟩], 4, true⟩] := by decide +kernel

/-- The callback objects in step 5: the last segment holds one complete step and leftovers. -/
example : generate (exSys 5) false true 4 0 0 0 20 = .ok
    [⟨[⟨10, 0, 10, true⟩, ⟨1, 1, 2, false⟩, ⟨2, 2, 4, false⟩, ⟨10, 3, 13, true⟩], [⟨10, 10, false⟩, ⟨2, 2, false⟩, ⟨4, 4, true⟩, ⟨10, 10, false⟩], 4,
        [⟨100, 100, 3⟩], 4, true⟩,
     ⟨[⟨1, -2, 1, false⟩, ⟨2, 5, 3, false⟩, ⟨2, 2, 4, false⟩, ⟨10, 3, 13, true⟩], [⟨1, 1, false⟩, ⟨2, 2, false⟩, ⟨4, 4, true⟩, ⟨10, 10, false⟩], 5,
        [], 1, false⟩] := by decide +kernel

end Neorl.TrajSeg
