import Verif.Moves
import Verif.Props.CS

/-!
# Property theorems C65: how cuckoos move
-/

set_option linter.unusedSectionVars false
set_option linter.unusedVariables false

namespace Neorl.CS

section
variable {K : Type} [Field K] [LinearOrder K] [IsStrictOrderedRing K] [FloorRing K]

theorem disc_float_at {S : Space K} (hS : S.OK) {a : K} {d : ℕ → K × ℕ} {v w : List K} (h : S.disc a d v = .ok w) {j : ℕ}
    (ht : S.types[j]? = some VType.float) : w[j]? = v[j]? :=
  (ensureDiscrete_spec hS.ordered h).2.2 j (Or.inl (by rw [ht]; simp))

theorem gen_ok {c : Conf K} {fit : List K → K} {g : ℕ} {d : Draw K} {s s' : State K} (h : gen c fit g d s = .ok s') :
    ∃ new1 new2, mapRows (levyRow c g d s.best.2) 0 (s.nests.map (fun q => q.1)) = .ok new1 ∧ mapRows (discoverRow c g d new1) 0 new1 = .ok new2 ∧
      s'.log = s.log ++ new1.map c.S.clip ++ new2.map c.S.clip := by
  simp only [gen] at h
  split at h
  · cases h
  rename_i new1 h1
  split at h
  · cases h
  rename_i new2 h2
  split at h
  · cases h
  cases h
  exact ⟨new1, new2, h1, h2, rfl⟩

/-- **C65.** One generation, from any state, every float coordinate of every cuckoo.  The Lévy flight moves the stored coordinate `x` by a random multiple of its
difference to the incumbent's coordinate (without clamping).  The discovery then leaves the result unchanged when the uniform number drawn for this coordinate is at most `pa`; otherwise
it adds a common random fraction of the difference of two flown cuckoos, and clamps.  The log shows the clamped flights, then the discoveries. -/
theorem C65_cs_move {c : Conf K} (hS : c.S.OK) {fit : List K → K} {g : ℕ} {d : Draw K} {s s' : State K} (h : gen c fit g d s = .ok s') :
    ∃ flown found : List (List K), flown.length = s.nests.length ∧ found.length = s.nests.length ∧
      s'.log = s.log ++ flown.map c.S.clip ++ found.map c.S.clip ∧
      ∀ (i j : ℕ) (q : List K × K) (x : K) (b : K × K), s.nests[i]? = some q → q.1[j]? = some x → c.S.types[j]? = some VType.float →
        c.S.bounds[j]? = some b → ∃ f e n y, flown[i]? = some f ∧ found[i]? = some e ∧ f[j]? = some n ∧ e[j]? = some y ∧
          (∃ t, n = x + t * (x - s.best.2.getD j 0)) ∧
          (d.u i j ≤ c.pa → y = clamp b.1 b.2 n) ∧
          (c.pa < d.u i j → y = clamp b.1 b.2 (n + d.scale * ((flown.getD (d.perm1 i % c.ncuckoos) []).getD j 0 - (flown.getD (d.perm2 i % c.ncuckoos) []).getD j 0))) := by
  obtain ⟨new1, new2, h1, h2, h3⟩ := gen_ok h
  obtain ⟨a1, a2⟩ := mapRows_ok h1
  obtain ⟨b1, b2⟩ := mapRows_ok h2
  rw [List.length_map] at a1
  refine ⟨new1, new2, a1, by rw [b1, a1], h3, ?_⟩
  intro i j q x b hq hx ht hb
  have hil : i < s.nests.length := (List.getElem?_eq_some_iff.1 hq).1
  have e1 : new1[i]? = some new1[i] := List.getElem?_eq_getElem (by omega)
  have e2 : new2[i]? = some new2[i] := List.getElem?_eq_getElem (by omega)
  obtain ⟨p, hp, hl⟩ := a2 i _ e1
  rw [List.getElem?_map, hq] at hp
  cases hp
  rw [Nat.zero_add] at hl
  obtain ⟨p2, hp2, hd⟩ := b2 i _ e2
  rw [e1] at hp2; cases hp2
  rw [Nat.zero_add] at hd
  have hn : new1[i][j]? = some (x + d.levy i j * (x - s.best.2.getD j 0)) := by
    rw [disc_float_at hS hl ht, List.getElem?_mapIdx, hx, Option.map_some]
  have hy := Space.repair_float hS hd ht hb (by rw [List.getElem?_mapIdx, hn, Option.map_some])
  refine ⟨new1[i], new2[i], _, _, e1, e2, hn, hy, ⟨_, rfl⟩, ?_, ?_⟩
  · intro hu
    rw [if_neg (not_lt.2 hu), mul_zero, add_zero]
  · intro hu
    rw [if_pos hu, mul_one]

/-- **C65.** The incumbent is not moved by its own Lévy flight: a coordinate equal to the incumbent's is evaluated again at the same (clamped) place. -/
theorem C65_cs_best_rests {c : Conf K} (hS : c.S.OK) {fit : List K → K} {g : ℕ} {d : Draw K} {s s' : State K} (h : gen c fit g d s = .ok s') {i j : ℕ}
    {q : List K × K} {x : K} {b : K × K} (hq : s.nests[i]? = some q) (hx : q.1[j]? = some x) (hbest : s.best.2[j]? = some x)
    (ht : c.S.types[j]? = some VType.float) (hb : c.S.bounds[j]? = some b) :
    ∃ z, s'.log[s.log.length + i]? = some z ∧ z[j]? = some (clamp b.1 b.2 x) := by
  obtain ⟨flown, found, l1, l2, hlog, hmv⟩ := C65_cs_move hS h
  obtain ⟨f, e, n, y, e1, e2, e3, e4, ⟨t, e5⟩, -, -⟩ := hmv i j q x b hq hx ht hb
  have hbd : s.best.2.getD j 0 = x := by rw [List.getD_eq_getElem?_getD, hbest]; rfl
  rw [hbd, sub_self, mul_zero, add_zero] at e5
  refine ⟨c.S.clip f, ?_, ?_⟩
  · rw [hlog, List.append_assoc, List.getElem?_append_right (by omega), Nat.add_sub_cancel_left,
      List.getElem?_append_left (by rw [List.length_map, l1]; exact (List.getElem?_eq_some_iff.1 hq).1), List.getElem?_map, e1]; rfl
  · unfold Space.clip
    rw [ensureBounds_eq_zipWith hS.ordered, List.getElem?_zipWith, hb, e3, e5]

/-- **C65 (defect).** `pa` is the probability of *not* being discovered, contrary to the comment "Discover a fraction ~pa": whenever every uniform number is at most `pa` (always so
for `pa = 1`), the discovery phase evaluates every float coordinate exactly where the flight evaluated it. -/
theorem C65_cs_pa_keeps {c : Conf K} (hS : c.S.OK) {fit : List K → K} {g : ℕ} {d : Draw K} (hu : ∀ i j, d.u i j ≤ c.pa) {s s' : State K}
    (h : gen c fit g d s = .ok s') {i j : ℕ} {q : List K × K} {x : K} {b : K × K} (hq : s.nests[i]? = some q) (hx : q.1[j]? = some x)
    (ht : c.S.types[j]? = some VType.float) (hb : c.S.bounds[j]? = some b) :
    ∃ z w y, s'.log[s.log.length + i]? = some z ∧ s'.log[s.log.length + s.nests.length + i]? = some w ∧ z[j]? = some y ∧ w[j]? = some y := by
  obtain ⟨flown, found, l1, l2, hlog, hmv⟩ := C65_cs_move hS h
  obtain ⟨f, e, n, y, e1, e2, e3, e4, -, e6, -⟩ := hmv i j q x b hq hx ht hb
  have hil : i < s.nests.length := (List.getElem?_eq_some_iff.1 hq).1
  have hcl : ∀ v u, v[j]? = some u → (c.S.clip v)[j]? = some (clamp b.1 b.2 u) := by
    intro v u hv
    unfold Space.clip
    rw [ensureBounds_eq_zipWith hS.ordered, List.getElem?_zipWith, hb, hv]
  refine ⟨c.S.clip f, c.S.clip e, clamp b.1 b.2 n, ?_, ?_, hcl _ _ e3, ?_⟩
  · rw [hlog, List.append_assoc, List.getElem?_append_right (by omega), Nat.add_sub_cancel_left,
      List.getElem?_append_left (by rw [List.length_map, l1]; exact hil), List.getElem?_map, e1]; rfl
  · rw [hlog, List.getElem?_append_right (by rw [List.length_append, List.length_map, l1]; omega), List.length_append, List.length_map, l1,
      Nat.add_sub_cancel_left, List.getElem?_map, e2]; rfl
  · rw [hcl _ _ e4, e6 (hu i j)]
    congr 1
    have hbo := hS.ordered b (List.mem_of_getElem? hb)
    unfold clamp
    have h1 : max b.1 (min n b.2) ≤ b.2 := max_le hbo (min_le_right _ _)
    rw [min_eq_left h1, max_eq_right (le_max_left _ _)]

/-! ### Concrete cases -/

/-- The run of `Props/CS.lean` has discovered first coordinates and kept second ones. -/
example : (exDr 0).u 0 0 > exC.pa ∧ (exDr 0).u 0 1 ≤ exC.pa := by decide +kernel
/-- First coordinates: two initial nests, two flights (the incumbent at 4 stays, the other goes to 13 and is evaluated at the bound 5), two discoveries. -/
example : (match run exC (fun x => exFit x) exDr exPos 1 with | .ok s => s.log.map (fun p => p.getD 0 0) | _ => []) = [3, 4, 5, 4, 409 / 100, 5] := by decide +kernel
/-- With `pa = 1` the second evaluation repeats the first. -/
example : (match run { exC with pa := 1 } (fun x => exFit x) exDr exPos 1 with | .ok s => s.log.map (fun p => p.getD 0 0) | _ => []) = [3, 4, 5, 4, 5, 4] := by decide +kernel

end
end Neorl.CS
