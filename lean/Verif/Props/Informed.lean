import Verif.Informed
import Verif.Props.DE
import Verif.Props.ES
import Verif.Props.Grid

/-!
# Property theorems C76-C78: RL-informed evolution (ACKDE, PPO-ES)
-/

set_option linter.unusedSectionVars false
set_option linter.unusedVariables false

namespace Neorl.Informed

section
variable {K : Type} [Field K] [LinearOrder K] [IsStrictOrderedRing K] [FloorRing K]

/-- Specification: `w` are the numbers by which the individual `x` is handed to the evolutionary algorithm — the position of a grid value (the first,
if it occurs twice), every other value unchanged. -/
def Encodes : Bounds K → Row K → Row K → Prop
  | [], [], [] => True
  | (_, .grid vals) :: bs, x :: xs, w :: ws =>
    (∃ (i : ℕ) (u : Val K), w = .float (i : K) ∧ vals[i]? = some u ∧ u.pyEq x ∧ ∀ (j : ℕ) (u' : Val K), j < i → vals[j]? = some u' → ¬ u'.pyEq x) ∧ Encodes bs xs ws
  | (_, _) :: bs, x :: xs, w :: ws => (w.pyEq x ∧ ∀ n, w ≠ .npint n) ∧ Encodes bs xs ws
  | _, _, _ => False

theorem cell_pyEq (v : Val K) : (cell v).pyEq v := by cases v <;> rfl

theorem cell_notNp (v : Val K) (n : ℤ) : cell v ≠ .npint n := by cases v <;> simp [cell]

theorem cell_cell (v : Val K) : cell (cell v) = cell v := by cases v <;> rfl

theorem encodeRow_encodes {bs : Bounds K} {x r : Row K} (hl : x.length = bs.length) (h : encodeRow bs (x.map cell) = .ok r) :
    Encodes bs x (r.map cell) := by
  induction bs generalizing x r with
  | nil =>
    cases x with
    | nil => cases h; trivial
    | cons a l => simp at hl
  | cons b bs ih =>
    cases x with
    | nil => simp at hl
    | cons x xs =>
      obtain ⟨k, s⟩ := b
      have hl' : xs.length = bs.length := by simpa using hl
      cases s with
      | grid vals =>
        simp only [encodeRow, List.map_cons] at h
        split at h
        · cases h
        · rename_i i hi
          split at h
          · cases h
          · rename_i r' hr
            cases h
            refine ⟨?_, ih hl' hr⟩
            rw [List.findIdx?_eq_some_iff_getElem] at hi
            obtain ⟨h1, h2, h3⟩ := hi
            refine ⟨i, vals[i], by simp [cell], List.getElem?_eq_getElem h1, ?_, ?_⟩
            · simp only [decide_eq_true_eq] at h2
              exact h2.trans (cell_pyEq x)
            · intro j u' hj hu hp
              obtain ⟨g1, g2⟩ := List.getElem?_eq_some_iff.1 hu
              have := h3 j hj
              simp only [decide_eq_true_eq] at this
              exact this (by rw [g2]; exact hp.trans (cell_pyEq x).symm)
      | int l u =>
        simp only [encodeRow, List.map_cons] at h
        split at h
        · cases h
        · rename_i r' hr
          cases h
          refine ⟨⟨?_, fun n => cell_notNp _ n⟩, ih hl' hr⟩
          rw [cell_cell]; exact cell_pyEq x
      | float l u =>
        simp only [encodeRow, List.map_cons] at h
        split at h
        · cases h
        · rename_i r' hr
          cases h
          refine ⟨⟨?_, fun n => cell_notNp _ n⟩, ih hl' hr⟩
          rw [cell_cell]; exact cell_pyEq x

theorem noGrid_encodes {bs : Bounds K} (hg : hasGrid bs = false) {x : Row K} (hl : x.length = bs.length) : Encodes bs x (x.map cell) := by
  induction bs generalizing x with
  | nil =>
    cases x with
    | nil => trivial
    | cons a l => simp at hl
  | cons b bs ih =>
    cases x with
    | nil => simp at hl
    | cons x xs =>
      obtain ⟨k, s⟩ := b
      have hl' : xs.length = bs.length := by simpa using hl
      cases s with
      | grid vals => simp [hasGrid] at hg
      | int l u => exact ⟨⟨cell_pyEq x, cell_notNp x⟩, ih (by simpa [hasGrid] using hg) hl'⟩
      | float l u => exact ⟨⟨cell_pyEq x, cell_notNp x⟩, ih (by simpa [hasGrid] using hg) hl'⟩

theorem encodeRows_ok {bs : Bounds K} {rs ds : List (Row K)} (h : encodeRows bs rs = .ok ds) :
    ds.length = rs.length ∧ ∀ (i : ℕ) r, rs[i]? = some r → ∃ e, encodeRow bs r = .ok e ∧ ds[i]? = some (e.map cell) := by
  induction rs generalizing ds with
  | nil => cases h; simp
  | cons r rs ih =>
    simp only [encodeRows] at h
    split at h
    · cases h
    · rename_i e he
      split at h
      · cases h
      · rename_i ds' hd
        cases h
        obtain ⟨h1, h2⟩ := ih hd
        refine ⟨by simp [h1], ?_⟩
        intro i q hq
        cases i with
        | zero => simp at hq; subst hq; exact ⟨e, he, rfl⟩
        | succ i => simp at hq; obtain ⟨e', g1, g2⟩ := h2 i q hq; exact ⟨e', g1, by simpa using g2⟩

/-- **C76.** What `learn` keeps.  The returned table is the agent's history, best first; the data handed to the evolutionary algorithm are its first
`rl_filter` rows (all, if there are fewer), none of them worse than a row left out, each encoded for the search space. -/
theorem C76_learn {c : Conf K} {srt : Bool → List (Row K × K) → List (Row K × K)} (hs : SortOK srt) {em : Option String} {filter : ℕ} {xs : List (Row K)}
    {rs : List K} {o o' : Obj K} {df : List (Row K × K)} (h : learn c srt em filter xs rs o = (o', .ok df)) :
    em.getD "max" = (if c.minMode then "min" else "max") ∧ o'.flag = true ∧ df.Perm (xs.zip rs) ∧ xs.length = rs.length ∧
    df.Pairwise (fun p q => NotWorse c.minMode q.2 p.2) ∧
    ∃ kept dropped d, df = kept ++ dropped ∧ kept.length = min df.length filter ∧ (∀ p ∈ kept, ∀ q ∈ dropped, NotWorse c.minMode q.2 p.2) ∧
      o'.data = some d ∧ d.length = kept.length ∧ ∀ (i : ℕ) p, kept[i]? = some p → ∃ w, d[i]? = some w ∧ Encodes c.orig p.1 w := by
  have htop : ∀ l : List (Row K × K), (if l.length < filter then l else l.take filter) = l.take filter := by
    intro l
    by_cases hlt : l.length < filter
    · rw [if_pos hlt, List.take_of_length_le hlt.le]
    · rw [if_neg hlt]
  unfold learn at h
  dsimp only at h
  rw [htop] at h
  split_ifs at h with h1 h2 h3 h4
  all_goals try (cases h; done)
  all_goals
    obtain ⟨hperm, hpair⟩ := hs c.minMode (xs.zip rs)
    have hmode : em.getD "max" = (if c.minMode then "min" else "max") := by
      unfold modesMatch at h1
      simpa using h1
    have hlen : ∀ p ∈ srt c.minMode (xs.zip rs), p.1.length = c.orig.length := by
      intro p hp
      have := (List.of_mem_zip (show (p.1, p.2) ∈ xs.zip rs from hperm.mem_iff.1 hp)).1
      by_contra hne
      apply h2
      rw [List.any_eq_true]
      exact ⟨p.1, this, by simpa using hne⟩
    have hsplit : ∀ p ∈ (srt c.minMode (xs.zip rs)).take filter, ∀ q ∈ (srt c.minMode (xs.zip rs)).drop filter, NotWorse c.minMode q.2 p.2 := by
      have := hpair
      rw [← List.take_append_drop filter (srt c.minMode (xs.zip rs)), List.pairwise_append] at this
      exact this.2.2
  · -- grid variables
    split at h
    · cases h
    · rename_i d hd
      cases h
      obtain ⟨e1, e2⟩ := encodeRows_ok hd
      refine ⟨hmode, rfl, hperm, not_not.1 h3, hpair, (srt c.minMode (xs.zip rs)).take filter, (srt c.minMode (xs.zip rs)).drop filter, d,
        (List.take_append_drop _ _).symm, by rw [List.length_take, min_comm], hsplit, rfl, by simpa using e1, ?_⟩
      intro i p hp
      obtain ⟨e, g1, g2⟩ := e2 i (p.1.map cell) (by rw [List.getElem?_map, hp]; rfl)
      exact ⟨_, g2, encodeRow_encodes (hlen p (List.mem_of_mem_take (List.mem_of_getElem? hp))) g1⟩
  · cases h
    have hg : hasGrid c.orig = false := by simpa using h4
    refine ⟨hmode, rfl, hperm, not_not.1 h3, hpair, (srt c.minMode (xs.zip rs)).take filter, (srt c.minMode (xs.zip rs)).drop filter, _,
      (List.take_append_drop _ _).symm, by rw [List.length_take, min_comm], hsplit, rfl, by simp, ?_⟩
    intro i p hp
    refine ⟨p.1.map cell, by rw [List.getElem?_map, hp]; rfl, ?_⟩
    exact noGrid_encodes hg (hlen p (List.mem_of_mem_take (List.mem_of_getElem? hp)))

theorem encodeRow_total {bs : Bounds K} {x : Row K} (hx : InSpace bs x) : ∃ r, encodeRow bs (x.map cell) = .ok r := by
  unfold InSpace at hx
  induction hx with
  | nil => exact ⟨_, rfl⟩
  | cons h _ ih =>
    rename_i b v bs xs htl
    obtain ⟨r, hr⟩ := ih
    obtain ⟨k, s⟩ := b
    cases s with
    | grid vals =>
      obtain ⟨u, hu, hp⟩ := h
      simp only [encodeRow, List.map_cons, hr]
      cases hf : vals.findIdx? (fun w => decide (Val.pyEq w (cell v))) with
      | none =>
        rw [List.findIdx?_eq_none_iff] at hf
        have := hf u hu
        simp only [decide_eq_false_iff_not] at this
        exact absurd (hp.symm.trans (cell_pyEq v).symm) this
      | some i => exact ⟨_, rfl⟩
    | int l u => simp only [encodeRow, List.map_cons, hr]; exact ⟨_, rfl⟩
    | float l u => simp only [encodeRow, List.map_cons, hr]; exact ⟨_, rfl⟩

theorem encodeRows_total {bs : Bounds K} {xs : List (Row K)} (hx : ∀ x ∈ xs, InSpace bs x) : ∃ r, encodeRows bs (xs.map (fun x => x.map cell)) = .ok r := by
  induction xs with
  | nil => exact ⟨_, rfl⟩
  | cons x xs ih =>
    obtain ⟨r, hr⟩ := encodeRow_total (hx x (by simp))
    obtain ⟨rs, hrs⟩ := ih (fun y hy => hx y (by simp [hy]))
    simp only [List.map_cons, encodeRows, hr, hrs]
    exact ⟨_, rfl⟩

/-- **C76, no exception.** `learn` succeeds when the modes agree and the agent visited members of the space; when the modes differ it raises `ValueError`
and keeps the data of an earlier call, but marks the object as trained: a following `evolute` fails with `AttributeError` instead of the intended message. -/
theorem C76_total {c : Conf K} {srt : Bool → List (Row K × K) → List (Row K × K)} (hs : SortOK srt) {em : Option String} {filter : ℕ} {xs : List (Row K)}
    {rs : List K} (o : Obj K) :
    (em.getD "max" = (if c.minMode then "min" else "max") → xs.length = rs.length → (∀ x ∈ xs, InSpace c.orig x) →
      ∃ o' df, learn c srt em filter xs rs o = (o', .ok df)) ∧
    (em.getD "max" ≠ (if c.minMode then "min" else "max") → learn c srt em filter xs rs o = ({ o with flag := true }, .error .valueError)) := by
  constructor
  · intro hm hl hx
    unfold learn
    dsimp only
    rw [if_neg (by unfold modesMatch; rw [decide_eq_false_iff_not]; exact not_not.2 hm), if_neg, if_neg (not_not.2 hl)]
    · split_ifs with hg hf
      · obtain ⟨r, hr⟩ := encodeRows_total (bs := c.orig) (xs := (srt c.minMode (xs.zip rs)).map Prod.fst) (by
          intro x hx'
          obtain ⟨p, hp, rfl⟩ := List.mem_map.1 hx'
          exact hx _ (List.of_mem_zip (show (p.1, p.2) ∈ xs.zip rs from (hs _ _).1.mem_iff.1 hp)).1)
        rw [List.map_map] at hr
        simp only [Function.comp_def] at hr
        rw [hr]
        exact ⟨_, _, rfl⟩
      · obtain ⟨r, hr⟩ := encodeRows_total (bs := c.orig) (xs := ((srt c.minMode (xs.zip rs)).take filter).map Prod.fst) (by
          intro x hx'
          obtain ⟨p, hp, rfl⟩ := List.mem_map.1 hx'
          exact hx _ (List.of_mem_zip (show (p.1, p.2) ∈ xs.zip rs from (hs _ _).1.mem_iff.1 (List.mem_of_mem_take hp))).1)
        rw [List.map_map] at hr
        simp only [Function.comp_def] at hr
        rw [hr]
        exact ⟨_, _, rfl⟩
      · exact ⟨_, _, rfl⟩
      · exact ⟨_, _, rfl⟩
    · intro hc
      rw [List.any_eq_true] at hc
      obtain ⟨x, hx', hne⟩ := hc
      simp only [decide_eq_true_eq] at hne
      exact hne (hx x hx').length_eq.symm
  · intro hm
    unfold learn
    dsimp only
    rw [if_pos (by unfold modesMatch; rw [decide_eq_false_iff_not]; exact hm)]

/-- **C76, the data are feasible.** An encoded member of the user's space is a feasible point of the space that the evolutionary algorithm searches. -/
theorem C76_feasible {bs : Bounds K} {x w : Row K} (hx : InSpace bs x) (he : Encodes bs x w) : ∃ v, nums w = .ok v ∧ (space bs).Feasible v := by
  unfold InSpace at hx
  suffices h : ∃ v, nums w = .ok v ∧ InBox (space bs).bounds v ∧ ∀ (d : ℕ) y, (space bs).types[d]? = some VType.int → v[d]? = some y → ∃ n : ℤ, y = n by
    obtain ⟨v, h1, h2, h3⟩ := h
    exact ⟨v, h1, h2, h3⟩
  unfold InBox
  induction hx generalizing w with
  | nil =>
    cases w with
    | nil => exact ⟨[], rfl, .nil, by simp⟩
    | cons a l => exact he.elim
  | cons h _ ih =>
    rename_i b x bs xs htl
    obtain ⟨k, s⟩ := b
    cases w with
    | nil => cases s <;> exact he.elim
    | cons w ws =>
      cases s with
      | grid vals =>
        obtain ⟨⟨i, u, rfl, h1, h2, h3⟩, ht⟩ := he
        obtain ⟨v, g1, g2, g3⟩ := ih ht
        have hlt := (List.getElem?_eq_some_iff.1 h1).1
        refine ⟨(i : K) :: v, by simp only [nums, Val.num?, g1], ?_, ?_⟩
        · refine .cons ?_ g2
          simp only [Env.specB]
          refine ⟨Nat.cast_nonneg _, ?_⟩
          have : ((i + 1 : ℕ) : K) ≤ (vals.length : K) := by exact_mod_cast hlt
          push_cast at this
          linarith
        · intro d y hd hy
          cases d with
          | zero => simp at hy; exact ⟨i, by rw [← hy]; simp⟩
          | succ d => exact g3 d y (by simpa [space, encodeBounds] using hd) (by simpa using hy)
      | int l u =>
        obtain ⟨⟨h1, h2⟩, ht⟩ := he
        obtain ⟨v, g1, g2, g3⟩ := ih ht
        obtain ⟨n, e1, e2, e3⟩ := h
        have hw : w.num? = some (n : K) := by
          unfold Val.pyEq at h1
          cases w <;> cases x <;> simp_all [Val.canon, Val.num?]
        refine ⟨(n : K) :: v, by simp only [nums, hw, g1], .cons ⟨e2, e3⟩ g2, ?_⟩
        intro d y hd hy
        cases d with
        | zero => simp at hy; exact ⟨n, hy.symm⟩
        | succ d => exact g3 d y (by simpa [space, encodeBounds] using hd) (by simpa using hy)
      | float l u =>
        obtain ⟨⟨h1, h2⟩, ht⟩ := he
        obtain ⟨v, g1, g2, g3⟩ := ih ht
        obtain ⟨z, e1, e2, e3⟩ := h
        have hw : w.num? = some z := by
          unfold Val.pyEq at h1
          cases w <;> cases x <;> simp_all [Val.canon, Val.num?]
        refine ⟨z :: v, by simp only [nums, hw, g1], .cons ⟨e2, e3⟩ g2, ?_⟩
        intro d y hd hy
        cases d with
        | zero => simp [space, encodeBounds, Env.specT] at hd
        | succ d => exact g3 d y (by simpa [space, encodeBounds] using hd) (by simpa using hy)

/-- **C76, decoding.** An encoded individual decodes back to the individual the agent visited. -/
theorem C76_decodes {bs : Bounds K} (hk : (bs.map Prod.fst).Nodup) {x w : Row K} (he : Encodes bs x w) :
    ∃ y, decodeIndv (encodeBounds bs).2 bs w = .ok y ∧ SameIndv y x := by
  suffices h : ∀ m : BMap K, (∀ k vals, (k, Spec.grid vals) ∈ bs → mapGet m k = .ok (gridDict 0 vals)) → ∃ y, decodeIndv m bs w = .ok y ∧ SameIndv y x from
    h _ (fun k vals hm => mapGet_encodeBounds hk hm)
  intro m hm
  clear hk
  induction bs generalizing x w with
  | nil =>
    cases x <;> cases w <;> first | exact he.elim | exact ⟨[], rfl, .nil⟩
  | cons b bs ih =>
    obtain ⟨k, s⟩ := b
    cases x with
    | nil => cases s <;> exact he.elim
    | cons x xs =>
      cases w with
      | nil => cases s <;> exact he.elim
      | cons w ws =>
        cases s with
        | grid vals =>
          obtain ⟨⟨i, u, rfl, h1, h2, h3⟩, ht⟩ := he
          obtain ⟨y, g1, g2⟩ := ih ht (fun k vals hm' => hm k vals (by simp [hm']))
          refine ⟨u :: y, ?_, .cons h2 g2⟩
          simp only [decodeIndv, hm k vals (by simp), g1]
          have hd : dictGet (gridDict 0 vals) (Val.float (i : K)) = .ok u := by
            have := find_gridDict 0 vals (.float (i : K)) i (by simp [Val.pyEq, Val.canon])
            unfold dictGet
            rw [this, h1]
            rfl
          rw [hd]
        | int l u =>
          obtain ⟨⟨h1, h2⟩, ht⟩ := he
          obtain ⟨y, g1, g2⟩ := ih ht (fun k vals hm' => hm k vals (by simp [hm']))
          exact ⟨w :: y, by simp only [decodeIndv, g1], .cons h1 g2⟩
        | float l u =>
          obtain ⟨⟨h1, h2⟩, ht⟩ := he
          obtain ⟨y, g1, g2⟩ := ih ht (fun k vals hm' => hm k vals (by simp [hm']))
          exact ⟨w :: y, by simp only [decodeIndv, g1], .cons h1 g2⟩

/-! ### ACKDE -/

/-- The worst `nrl` indices and the others. -/
theorem argsort_split {ord : List K → List ℕ} (ho : ArgsortOK ord) (l : List K) (nrl : ℕ) :
    ((ord l).take nrl).Nodup ∧ (∀ i ∈ (ord l).take nrl, i < l.length) ∧ ((ord l).take nrl).length = min nrl l.length ∧
    ∀ i ∈ (ord l).take nrl, ∀ (j : ℕ) a b, j ∉ (ord l).take nrl → l[i]? = some a → l[j]? = some b → a ≤ b := by
  obtain ⟨h1, h2⟩ := ho l
  have hnd : (ord l).Nodup := h1.nodup_iff.2 List.nodup_range
  refine ⟨hnd.sublist (List.take_sublist _ _), ?_, ?_, ?_⟩
  · intro i hi
    exact List.mem_range.1 (h1.mem_iff.1 (List.mem_of_mem_take hi))
  · rw [List.length_take, h1.length_eq, List.length_range]
  · intro i hi j a b hj ha hb
    have hjm : j ∈ ord l := h1.mem_iff.2 (List.mem_range.2 (List.getElem?_eq_some_iff.1 hb).1)
    rw [← List.take_append_drop nrl (ord l)] at hjm h2
    rw [List.pairwise_append] at h2
    rcases List.mem_append.1 hjm with hjm | hjm
    · exact absurd hjm hj
    · exact h2.2.2 i hi j hjm a b ha hb

theorem mix_get_mem {rl : List (ℕ × List K)} {pop : List (List K)} {i : ℕ} {x : List K} (hn : (rl.map Prod.fst).Nodup) (h : (i, x) ∈ rl) (hi : i < pop.length) :
    (DE.mix rl pop)[i]? = some x := by
  induction rl generalizing pop with
  | nil => cases h
  | cons p rl ih =>
    obtain ⟨k, y⟩ := p
    rw [List.map_cons, List.nodup_cons] at hn
    simp only [DE.mix]
    rcases List.mem_cons.1 h with h | h
    · cases h
      rw [mix_get hn.1, List.getElem?_set_self hi]
    · exact ih hn.2 h (by simpa using hi)

theorem range_filterMap_length {α : Type} {data : List α} (smp : ℕ → ℕ) {n : ℕ} (h : n ≤ data.length) :
    ((List.range n).filterMap (fun i => data[smp i % data.length]?)).length = n := by
  by_cases h0 : n = 0
  · subst h0; rfl
  · have hp : 0 < data.length := by omega
    have : (List.range n).filterMap (fun i => data[smp i % data.length]?) =
        (List.range n).map (fun i => data[smp i % data.length]'(Nat.mod_lt _ hp)) := by
      rw [← List.filterMap_eq_map]
      apply List.filterMap_congr
      intro i _
      simp [List.getElem?_eq_getElem (Nat.mod_lt (smp i) hp)]
    rw [this]; simp

/-- **C77, mixing.** After every generation exactly `npop_rl` individuals — none of them better than one that stays — are replaced by RL individuals; all
others are the survivors of the selection, and the result of the generation is not affected. -/
theorem C77_mix {c : DE.Conf K} {ord : List K → List ℕ} (ho : ArgsortOK ord) {nrl : ℕ} {smp : ℕ → ℕ} {data : List (List K)} {fit : List K → K}
    {dr : ℕ → DE.Draw K} {s s' : DE.State K} (h : genRL c ord nrl smp data fit dr s = .ok s') :
    ∃ (W : List ℕ) (s1 : DE.State K), DE.gen c fit dr [] s = .ok s1 ∧ s'.sel = s1.sel ∧ s'.last = s1.last ∧ s'.best = s1.best ∧ s'.log = s1.log ∧
      W.Nodup ∧ W.length = min nrl s1.sel.length ∧ (∀ i ∈ W, i < s1.sel.length ∧ ∃ x ∈ data, s'.pop[i]? = some x) ∧
      (∀ i, i ∉ W → s'.pop[i]? = (s1.sel[i]?).map Prod.fst) ∧
      (∀ i ∈ W, ∀ (j : ℕ) p q, j ∉ W → s1.sel[i]? = some p → s1.sel[j]? = some q → p.2 ≤ q.2) := by
  obtain ⟨s1, rl, h1, h2, rfl, h4⟩ := genRL_eq h
  obtain ⟨targets, trials, b, hs, hb, hs1⟩ := DE.gen_ok h1
  have hpop : s1.pop = s1.sel.map Prod.fst := by rw [hs1]; rfl
  obtain ⟨g1, g2, g3⟩ := mixRows_ok h2
  obtain ⟨o1, o2, o3, o4⟩ := argsort_split ho (s1.sel.map Prod.snd) nrl
  have hfst : rl.map Prod.fst = (ord (s1.sel.map Prod.snd)).take nrl := by
    unfold mixRows at h2
    split_ifs at h2
    cases h2
    rw [List.map_fst_zip]
    rw [range_filterMap_length smp g1]
    exact List.length_take_le _ _
  refine ⟨(ord (s1.sel.map Prod.snd)).take nrl, s1, h1, rfl, rfl, rfl, rfl, o1, by simpa using o3, ?_, ?_, ?_⟩
  · intro i hi
    have hlt := o2 i hi
    rw [List.length_map] at hlt
    refine ⟨hlt, ?_⟩
    rw [← hfst] at hi
    obtain ⟨p, hp, rfl⟩ := List.mem_map.1 hi
    exact ⟨p.2, g2 p.1 p.2 hp, mix_get_mem (by rw [hfst]; exact o1) (show (p.1, p.2) ∈ rl from hp) (by rw [hpop]; simpa using hlt)⟩
  · intro i hi
    show (DE.mix rl s1.pop)[i]? = _
    rw [mix_get (by rw [hfst]; exact hi), hpop, List.getElem?_map]
  · intro i hi j p q hj hp hq
    exact o4 i hi j p.2 q.2 hj (by rw [List.getElem?_map, hp]; rfl) (by rw [List.getElem?_map, hq]; rfl)

/-- The invariant of an RL-mode run with `nearest_int`: nothing evaluated so far is better than the best of the last generation, which is still in the
population. -/
theorem runRL_inv {c : DE.Conf K} (hS : c.S.OK) (hm : c.S.method = .nearestInt) {ord : List K → List ℕ} (ho : ArgsortOK ord) {nrl : ℕ} (hn : nrl < c.npop)
    {smp : ℕ → ℕ → ℕ} {data : List (List K)} (hd : ∀ x ∈ data, c.S.Feasible x) {fit : List K → K} {dr : ℕ → ℕ → DE.Draw K} {pop0 : List (List K)}
    (hl : pop0.length = c.npop) (hp : ∀ x ∈ pop0, c.S.Feasible x) {g : ℕ} {s : DE.State K} (h : runRL c ord nrl smp data fit dr pop0 g = .ok s) :
    s.pop.length = c.npop ∧ (∀ x ∈ s.pop, c.S.Feasible x) ∧ s.best.Pairwise (· ≤ ·) ∧
    (g ≠ 0 → ∃ b, s.last = some b ∧ s.best.getLast? = some b.2 ∧ b.2 = fit b.1 ∧ b.1 ∈ s.log ∧ (∀ x ∈ s.log, fit x ≤ b.2) ∧ (∃ x ∈ s.pop, fit x = b.2) ∧
      ∀ x ∈ pop0, x ∈ s.log) ∧ (g = 0 → s.pop = pop0) := by
  induction g generalizing s with
  | zero => cases h; exact ⟨hl, hp, .nil, by simp, by simp⟩
  | succ g ih =>
    simp only [runRL] at h
    split at h
    · cases h
    · rename_i s0 h0
      obtain ⟨a1, a2, a3, a4, a5⟩ := ih h0
      obtain ⟨W, s1, h1, e1, e2, e3, e4, w1, w2, w3, w4, w5⟩ := C77_mix ho h
      obtain ⟨b1, b2, b3, b4, b5, b6⟩ := DE.gen_mono hS hm a1 a2 h1
      obtain ⟨targets, trials, b, hs, hb, hs1⟩ := DE.gen_ok h1
      have hsel : DE.bestOf s1.sel = some b := by rw [hs1]; exact hb
      obtain ⟨c1, c2⟩ := DE.bestOf_spec hsel
      have hlast : s1.last = some b := by rw [hs1]
      have hbest : s1.best = s0.best ++ [b.2] := by rw [hs1]
      have hlog : s1.log = s0.log ++ trials.map c.S.clip ++ targets.map c.S.clip := by rw [hs1]
      have htg : targets = s0.pop := DE.sweep_nearest hS hm hs a2
      have hpl : s.pop.length = c.npop := by
        obtain ⟨s1', rl, q1, q2, q3, q4⟩ := genRL_eq h
        rw [h1] at q1
        cases q1
        rw [q3]
        show (DE.mix rl s1.pop).length = _
        rw [DE.length_mix, b2]
      have hsl : s1.sel.length = c.npop := by rw [← b2, b5, List.length_map]
      have hpop0 : ∀ y ∈ s0.pop, fit y ≤ b.2 := by
        intro y hy
        obtain ⟨i, hi⟩ := List.mem_iff_getElem?.1 hy
        obtain ⟨p, q1, q2⟩ := b3 i y hi
        exact q2.trans (c2 p (List.mem_of_getElem? q1))
      have hprev : ∀ x ∈ s0.log, fit x ≤ b.2 := by
        intro x hx
        by_cases hg : g = 0
        · subst hg; cases h0; cases hx
        · obtain ⟨b0, _, _, _, _, k1, ⟨z, k2, k3⟩, _⟩ := a4 hg
          exact (k1 x hx).trans (by rw [← k3]; exact hpop0 z k2)
      have hbl : b.1 ∈ s1.log := by
        have hcl : ∀ p ∈ s1.sel, c.S.Feasible p.1 := fun p hp' => b1 p.1 (by rw [b5]; exact List.mem_map_of_mem hp')
        have := (hcl b c1).1
        rw [hs1] at c1
        dsimp only at c1
        rcases (DE.mem_select c1).2 with hh | hh
        · rw [hlog]
          exact List.mem_append_right _ (List.mem_map.2 ⟨b.1, hh, c.S.clip_of_inBox this⟩)
        · rw [hlog]
          exact List.mem_append_left _ (List.mem_append_right _ (List.mem_map.2 ⟨b.1, hh, c.S.clip_of_inBox this⟩))
      refine ⟨hpl, ?_, ?_, fun _ => ⟨b, by rw [e2, hlast], by rw [e3, hbest]; simp, b6 b c1, by rw [e4]; exact hbl, ?_, ?_, ?_⟩, by simp⟩
      · intro x hx
        obtain ⟨i, hi⟩ := List.mem_iff_getElem?.1 hx
        by_cases hiW : i ∈ W
        · obtain ⟨_, y, hy, hy'⟩ := w3 i hiW
          rw [hi] at hy'
          cases hy'
          exact hd x hy
        · rw [w4 i hiW, ← List.getElem?_map, ← b5] at hi
          exact b1 x (List.mem_of_getElem? hi)
      · rw [e3, hbest, List.pairwise_append]
        refine ⟨a3, by simp, ?_⟩
        intro v hv w hw
        rw [List.mem_singleton] at hw
        subst hw
        by_cases hg : g = 0
        · subst hg; cases h0; cases hv
        · obtain ⟨b0, k0, k4, _, _, _, ⟨z, k2, k3⟩, _⟩ := a4 hg
          have : b0.2 ≤ b.2 := by rw [← k3]; exact hpop0 z k2
          refine le_trans ?_ this
          obtain ⟨i, hi⟩ := List.mem_iff_getElem?.1 hv
          rw [List.getLast?_eq_getElem?] at k4
          have hi' := (List.getElem?_eq_some_iff.1 hi)
          have hk' := (List.getElem?_eq_some_iff.1 k4)
          rcases Nat.lt_or_ge i (s0.best.length - 1) with hlt | hge
          · have := List.pairwise_iff_getElem.1 a3 i (s0.best.length - 1) hi'.1 hk'.1 hlt
            rw [hi'.2, hk'.2] at this
            exact this
          · have : i = s0.best.length - 1 := by have := hi'.1; omega
            subst this
            rw [k4] at hi
            cases hi; exact le_rfl
      · intro x hx
        rw [e4] at hx
        rcases b4 x hx with hx | ⟨p, hp', hle⟩
        · exact hprev x hx
        · exact hle.trans (c2 p hp')
      · -- one individual with the best score is not replaced
        obtain ⟨i, hi⟩ := List.mem_iff_getElem?.1 c1
        by_cases hiW : i ∈ W
        · have : ∃ j, j < c.npop ∧ j ∉ W := by
            by_contra hcon
            push Not at hcon
            have hsub : (List.range c.npop).length ≤ W.length :=
              (List.nodup_range.subperm (fun j hj => hcon j (List.mem_range.1 hj))).length_le
            rw [List.length_range, w2] at hsub
            have := min_le_left nrl s1.sel.length
            omega
          obtain ⟨j, hj, hjW⟩ := this
          have hq := List.getElem?_eq_getElem (l := s1.sel) (i := j) (by omega)
          have := w5 i hiW j _ _ hjW hi hq
          have hmem := List.getElem_mem (l := s1.sel) (n := j) (by omega)
          refine ⟨(s1.sel[j]'(by omega)).1, List.mem_of_getElem? (i := j) (by rw [w4 j hjW, hq]; rfl), ?_⟩
          rw [← b6 _ hmem]
          exact le_antisymm (c2 _ hmem) this
        · refine ⟨b.1, List.mem_of_getElem? (i := i) (by rw [w4 i hiW, hi]; rfl), (b6 b c1).symm⟩
      · intro x hx
        rw [e4, hlog]
        by_cases hg : g = 0
        · have := a5 hg
          refine List.mem_append_right _ (List.mem_map.2 ⟨x, by rw [htg, this]; exact hx, c.S.clip_of_inBox (hp x hx).1⟩)
        · obtain ⟨_, _, _, _, _, _, _, k⟩ := a4 hg
          exact List.mem_append_left _ (List.mem_append_left _ (k x hx))

/-- The start population of a run without grid variables (or without RL initialisation). -/
theorem start_ok {c : Conf K} (hg : hasGrid c.orig = false ∨ c.initRl = false) {idx : ℕ → ℕ} {pop0 : List (List K)} {rows : List (Row K)}
    (hrows : ∀ r ∈ rows, ∃ v, nums r = .ok v ∧ (space c.orig).Feasible v)
    (hp0 : c.initRl = false → pop0.length = c.npop ∧ ∀ x ∈ pop0, (space c.orig).Feasible x) {pop : List (List K)} (h : start c idx pop0 rows = .ok pop) :
    pop.length = c.npop ∧ (∀ x ∈ pop, (space c.orig).Feasible x) ∧
    (c.initRl = true → ∀ i < c.npop, ∃ r x, rows[idx i % rows.length]? = some r ∧ nums r = .ok x ∧ pop[i]? = some x) := by
  unfold start at h
  split_ifs at h with hi
  · split at h
    · cases h
    · rename_i st hst
      obtain ⟨s1, s2, s3⟩ := startRows_ok hst
      obtain ⟨p1, p2⟩ := initPop_get h
      have hgf : hasGrid c.orig = false := by
        rcases hg with hg | hg
        · exact hg
        · rw [hg] at hi; cases hi
      have key : ∀ i < c.npop, ∃ r x, rows[idx i % rows.length]? = some r ∧ nums r = .ok x ∧ pop[i]? = some x := by
        intro i hlt
        have hr := List.getElem?_eq_getElem (l := st) (i := i) (by omega)
        obtain ⟨_, e, x, g1, g2, g3⟩ := p2 i _ hr
        rw [hgf] at g1
        simp only [Bool.false_eq_true, if_false] at g1
        cases g1
        exact ⟨_, x, s3 i _ hr, g2, g3⟩
      refine ⟨by omega, ?_, fun _ => key⟩
      intro x hx
      obtain ⟨i, hi'⟩ := List.mem_iff_getElem?.1 hx
      obtain ⟨r, y, g1, g2, g3⟩ := key i (by have := (List.getElem?_eq_some_iff.1 hi').1; omega)
      rw [hi'] at g3
      cases g3
      obtain ⟨v, k1, k2⟩ := hrows r (List.mem_of_getElem? g1)
      rw [g2] at k1
      cases k1
      exact k2
  · cases h
    have hi' : c.initRl = false := by simpa using hi
    exact ⟨(hp0 hi').1, (hp0 hi').2, fun hh => absurd hh hi⟩

theorem numRows_feas {S : Space K} {rows : List (Row K)} (hrows : ∀ r ∈ rows, ∃ v, nums r = .ok v ∧ S.Feasible v) {data : List (List K)}
    (h : numRows rows = .ok data) : ∀ x ∈ data, S.Feasible x := by
  obtain ⟨h1, h2⟩ := numRows_get h
  intro x hx
  obtain ⟨i, hi⟩ := List.mem_iff_getElem?.1 hx
  have hr := List.getElem?_eq_getElem (l := rows) (i := i) (by have := (List.getElem?_eq_some_iff.1 hi).1; omega)
  obtain ⟨y, g1, g2⟩ := h2 i _ hr
  rw [hi] at g2
  cases g2
  obtain ⟨v, k1, k2⟩ := hrows _ (List.mem_of_getElem? hr)
  rw [g1] at k1
  cases k1
  exact k2

/-- **C77.** `ACKDE.evolute` after `learn` (no grid variables, or random initialisation): the returned point is feasible, has the returned fitness and is the
best of all points evaluated — mixing in RL individuals never loses the best —, the best fitness of the generations never gets worse, and with
`init_pop_rl` every RL individual drawn for the start is among the evaluated points, so the result is at least as good as each of them. -/
theorem C77_ackde {c : Conf K} (hS : (space c.orig).OK) (hc : construct c = .ok ()) (hg : hasGrid c.orig = false ∨ c.initRl = false) {F CR : K} {ngen : ℕ}
    {ord : List K → List ℕ} (ho : ArgsortOK ord) {d : Draws K} {f : List K → K} {o : Obj K} {rows : List (Row K)} (hdat : o.data = some rows)
    (hrows : ∀ r ∈ rows, ∃ v, nums r = .ok v ∧ (space c.orig).Feasible v)
    (hp0 : c.initRl = false → d.pop0.length = c.npop ∧ ∀ x ∈ d.pop0, (space c.orig).Feasible x) {r : DE.Result K} (h : ackde c F CR ngen ord d f o = .ok r) :
    IsBest c.minMode f r.log r.x r.y ∧ (space c.orig).Feasible r.x ∧ (∀ x ∈ r.log, (space c.orig).Feasible x) ∧ r.log.length = ngen * (2 * c.npop) ∧
    r.localFitness.Pairwise (NotWorse c.minMode) ∧ r.localFitness.getLast? = some r.y ∧
    (c.initRl = true → ∀ i < c.npop, ∃ w x, rows[d.idx i % rows.length]? = some w ∧ nums w = .ok x ∧ x ∈ r.log ∧ NotWorse c.minMode (f x) r.y) ∧
    (c.initRl = false → ∀ x ∈ d.pop0, x ∈ r.log) := by
  have hnp : c.npopRl < c.npop := by
    unfold construct at hc
    split_ifs at hc with hh
    exact hh
  unfold ackde at h
  rw [hdat] at h
  have hff : o.flag ≠ false := by
    intro hf
    rw [if_pos hf] at h
    cases h
  rw [if_neg hff] at h
  simp only at h
  split at h
  · cases h
  rename_i pop hpop
  split at h
  · cases h
  rename_i data hdata
  split at h
  · cases h
  rename_i s hs
  obtain ⟨p1, p2, p3⟩ := start_ok hg hrows hp0 hpop
  have hdf := numRows_feas hrows hdata
  obtain ⟨i1, i2, i3, i4, i5⟩ := runRL_inv (c := { S := space c.orig, F := F, CR := CR, npop := c.npop, ngen := ngen }) hS rfl ho hnp hdf p1 p2 hs
  have hrun := runRL_run hs
  have hev := finish_run (c := { S := space c.orig, F := F, CR := CR, npop := c.npop, ngen := ngen }) hrun
  obtain ⟨f1, f2⟩ := DE.C07_feasible (c := { S := space c.orig, F := F, CR := CR, npop := c.npop, ngen := ngen }) hS p1 (fun x hx => (p2 x hx).1.length_eq)
    (fun g i x hx => (hdf x (rlOf_mem hx)).1.length_eq) hrun
  have hng : ngen ≠ 0 := by
    rintro rfl
    cases hs
    cases h
  obtain ⟨b, j1, j2, j3, j4, j5, j6, j7⟩ := i4 hng
  have hpopi : c.initRl = false → pop = d.pop0 := by
    intro hh
    unfold start at hpop
    rw [hh] at hpop
    cases hpop
    rfl
  unfold finish at h
  rw [j1] at h
  simp only at h
  have hfit : ∀ x, (if c.minMode then (fun x => -f x) else f) x = if c.minMode then -f x else f x := by
    intro x; split_ifs <;> rfl
  rw [hfit] at j3
  simp only [hfit] at j5
  have hmin : ∀ x ∈ s.log, NotWorse c.minMode (f x) (if c.minMode then -b.2 else b.2) := by
    intro x hx
    have := j5 x hx
    cases hmm : c.minMode <;> rw [hmm] at this <;> simp [NotWorse] at this ⊢ <;> linarith
  have hval : (if c.minMode then -b.2 else b.2) = f b.1 := by
    rw [j3]
    cases hmm : c.minMode <;> simp
  have hfin : r.x = b.1 ∧ r.y = (if c.minMode then -b.2 else b.2) ∧ r.log = s.log ∧
      r.localFitness = s.best.map (fun v => if c.minMode then -v else v) := by
    cases hmm : c.minMode <;> rw [hmm] at h <;> simp only [Bool.false_eq_true, if_false, if_true] at h ⊢ <;> cases h <;> simp
  obtain ⟨z1, z2, z3, z4⟩ := hfin
  refine ⟨⟨by rw [z1, z3]; exact j4, by rw [z2, z1, hval], fun z hz => by rw [z2]; exact hmin z (by rw [← z3]; exact hz)⟩, ?_, ?_, ?_, ?_, ?_, ?_, ?_⟩
  · rw [z1]; exact f1 _ j4
  · rw [z3]; exact f1
  · rw [z3]; exact f2
  · rw [z4, List.pairwise_map]
    refine i3.imp ?_
    intro a b' hab
    cases hmm : c.minMode <;> simp [NotWorse] <;> linarith
  · rw [z4, List.getLast?_map, j2, z2]; rfl
  · intro hh i hi
    obtain ⟨w, x, k1, k2, k3⟩ := p3 hh i hi
    refine ⟨w, x, k1, k2, by rw [z3]; exact j7 x (List.mem_of_getElem? k3), by rw [z2]; exact hmin x (j7 x (List.mem_of_getElem? k3))⟩
  · intro hh x hx
    rw [z3]
    exact j7 x (by rw [hpopi hh]; exact hx)

theorem num_pyEq {a b : Val K} (h : a.pyEq b) : a.num? = b.num? := by
  cases a <;> cases b <;> simp_all [Val.pyEq, Val.canon, Val.num?]

theorem Encodes.notNp {bs : Bounds K} {x w : Row K} (he : Encodes bs x w) : w.length = bs.length ∧ ∀ v ∈ w, v.NotNp := by
  induction bs generalizing x w with
  | nil => cases x <;> cases w <;> first | exact he.elim | simp
  | cons b bs ih =>
    obtain ⟨k, s⟩ := b
    cases x with
    | nil => cases s <;> exact he.elim
    | cons x xs =>
      cases w with
      | nil => cases s <;> exact he.elim
      | cons w ws =>
        have key : w.NotNp ∧ Encodes bs xs ws := by
          cases s with
          | grid vals =>
            obtain ⟨⟨i, u, rfl, _⟩, ht⟩ := he
            exact ⟨fun n => by simp, ht⟩
          | int l u => exact ⟨he.1.2, he.2⟩
          | float l u => exact ⟨he.1.2, he.2⟩
        obtain ⟨h1, h2⟩ := ih key.2
        exact ⟨by simp [h1], fun v hv => by rcases List.mem_cons.1 hv with rfl | hv; exacts [key.1, h2 v hv]⟩

theorem noGrid_inSpace {bs : Bounds K} (hg : hasGrid bs = false) {x w : Row K} (hx : InSpace bs x) (he : Encodes bs x w) : InSpace bs w := by
  induction bs generalizing x w with
  | nil => cases x <;> cases w <;> first | exact he.elim | exact .nil
  | cons b bs ih =>
    obtain ⟨k, s⟩ := b
    cases x with
    | nil => cases s <;> exact he.elim
    | cons x xs =>
      cases w with
      | nil => cases s <;> exact he.elim
      | cons w ws =>
        obtain ⟨hx1, hx2⟩ := List.forall₂_cons.1 hx
        cases s with
        | grid vals => simp [hasGrid] at hg
        | int l u =>
          refine .cons ?_ (ih (by simpa [hasGrid] using hg) hx2 he.2)
          obtain ⟨n, h1, h2⟩ := hx1
          exact ⟨n, by rw [num_pyEq he.1.1]; exact h1, h2⟩
        | float l u =>
          refine .cons ?_ (ih (by simpa [hasGrid] using hg) hx2 he.2)
          obtain ⟨n, h1, h2⟩ := hx1
          exact ⟨n, by rw [num_pyEq he.1.1]; exact h1, h2⟩

/-- The rows stored by `learn`: encoded members of the user's space. -/
def RowsOK (bs : Bounds K) (rows : List (Row K)) : Prop := ∀ w ∈ rows, ∃ x, InSpace bs x ∧ Encodes bs x w

theorem RowsOK.feas {bs : Bounds K} {rows : List (Row K)} (h : RowsOK bs rows) : ∀ r ∈ rows, ∃ v, nums r = .ok v ∧ (space bs).Feasible v := by
  intro r hr
  obtain ⟨x, h1, h2⟩ := h r hr
  exact C76_feasible h1 h2

theorem numRows_total {bs : Bounds K} {rows : List (Row K)} (h : ∀ r ∈ rows, ∃ v, nums r = .ok v ∧ (space bs).Feasible v) :
    ∃ d, numRows rows = .ok d := by
  induction rows with
  | nil => exact ⟨[], rfl⟩
  | cons r rs ih =>
    obtain ⟨v, hv, _⟩ := h r (by simp)
    obtain ⟨d, hd⟩ := ih (fun q hq => h q (by simp [hq]))
    exact ⟨v :: d, by simp only [numRows, hv, hd]⟩

theorem initPop_total {bs : Bounds K} (hg : hasGrid bs = false) {rows : List (Row K)} (h : RowsOK bs rows) : ∃ d, initPop bs rows = .ok d := by
  induction rows with
  | nil => exact ⟨[], rfl⟩
  | cons r rs ih =>
    obtain ⟨v, hv, _⟩ := h.feas r (by simp)
    obtain ⟨d, hd⟩ := ih (fun q hq => h q (by simp [hq]))
    obtain ⟨x, hx, he⟩ := h r (by simp)
    obtain ⟨n1, n2⟩ := he.notNp
    have hc := (C06_check_iff n1 n2).2 (noGrid_inSpace hg hx he)
    exact ⟨v :: d, by simp only [initPop, hc, hg, Bool.false_eq_true, if_false, hv, hd]⟩

theorem start_total {c : Conf K} (hg : hasGrid c.orig = false ∨ c.initRl = false) {idx : ℕ → ℕ} {pop0 : List (List K)} {rows : List (Row K)}
    (hrows : RowsOK c.orig rows) (hne : c.initRl = true → rows ≠ []) : ∃ pop, start c idx pop0 rows = .ok pop := by
  unfold start
  split_ifs with hi
  · have hgf : hasGrid c.orig = false := by
      rcases hg with hg | hg
      · exact hg
      · rw [hg] at hi; cases hi
    have h0 : rows.length ≠ 0 := by simpa using hne hi
    simp only [startRows, if_neg h0]
    apply initPop_total hgf
    intro w hw
    obtain ⟨i, _, hi'⟩ := List.mem_filterMap.1 hw
    exact hrows w (List.mem_of_getElem? hi')
  · exact ⟨_, rfl⟩

/-- **C77, no exception.** After a successful `learn` with at least `npop_rl` (and at least one) recorded individuals, `ACKDE.evolute` returns. -/
theorem C77_total {c : Conf K} (hS : (space c.orig).OK) (hc : construct c = .ok ()) (hg : hasGrid c.orig = false ∨ c.initRl = false) {F CR : K} {ngen : ℕ}
    (hn : 0 < ngen) {ord : List K → List ℕ} (ho : ArgsortOK ord) {d : Draws K} {f : List K → K} {o : Obj K} (hfl : o.flag = true) {rows : List (Row K)}
    (hdat : o.data = some rows) (hrows : RowsOK c.orig rows) (hne : c.initRl = true → rows ≠ []) (hlen : c.npopRl ≤ rows.length)
    (hp0 : c.initRl = false → d.pop0.length = c.npop ∧ ∀ x ∈ d.pop0, (space c.orig).Feasible x)
    (hd : ∀ g j, (d.dr g j).i1 < c.npop ∧ (d.dr g j).i2 < c.npop ∧ (d.dr g j).i3 < c.npop) : ∃ r, ackde c F CR ngen ord d f o = .ok r := by
  have hnp : c.npopRl < c.npop := by
    unfold construct at hc
    split_ifs at hc with hh
    exact hh
  obtain ⟨pop, hpop⟩ := start_total hg hrows hne (idx := d.idx) (pop0 := d.pop0)
  obtain ⟨data, hdata⟩ := numRows_total hrows.feas
  obtain ⟨p1, p2, _⟩ := start_ok hg hrows.feas hp0 hpop
  have hdf := numRows_feas hrows.feas hdata
  have hdl : data.length = rows.length := (numRows_get hdata).1
  unfold ackde
  rw [hdat, if_neg (by rw [hfl]; simp)]
  simp only [hpop, hdata]
  generalize hfit : (if c.minMode then (fun x => -f x) else f) = fit
  set dc : DE.Conf K := { S := space c.orig, F := F, CR := CR, npop := c.npop, ngen := ngen } with hdc
  have key : ∀ g, ∃ s, runRL dc ord c.npopRl d.smp data fit d.dr pop g = .ok s := by
    intro g
    induction g with
    | zero => exact ⟨_, rfl⟩
    | succ g ih =>
      obtain ⟨s, hs⟩ := ih
      have hrun := runRL_run hs
      have hr : ∀ g i x, (i, x) ∈ rlOf dc ord c.npopRl d.smp data fit d.dr pop g → x.length = dc.S.bounds.length :=
        fun g i x hx => (hdf x (rlOf_mem hx)).1.length_eq
      have hpl : ∀ x ∈ pop, x.length = dc.S.bounds.length := fun x hx => (p2 x hx).1.length_eq
      -- the generation without mixing
      obtain ⟨s2, h2⟩ := DE.C07_total (c := dc) hS rfl (by show 0 < c.npop; omega) (fit := fit) (dr := d.dr)
        (rl := fun k => if k < g then rlOf dc ord c.npopRl d.smp data fit d.dr pop k else []) p1 hpl
        (by intro k i x hx; split_ifs at hx with hk; exacts [hr k i x hx, absurd hx (by simp)]) hd (g + 1)
      have hcongr : ∀ k ≤ g, DE.run dc fit d.dr (fun k => if k < g then rlOf dc ord c.npopRl d.smp data fit d.dr pop k else []) pop k =
          DE.run dc fit d.dr (rlOf dc ord c.npopRl d.smp data fit d.dr pop) pop k := by
        intro k hk
        induction k with
        | zero => rfl
        | succ k ihk =>
          simp only [DE.run]
          rw [ihk (by omega), if_pos (by omega)]
      simp only [DE.run] at h2
      rw [hcongr g le_rfl, hrun, if_neg (lt_irrefl g)] at h2
      simp only at h2
      simp only [runRL, hs, genRL, h2]
      simp only [mixRows, if_neg (show ¬ data.length < c.npopRl by omega)]
      exact ⟨_, rfl⟩
  obtain ⟨s, hs⟩ := key ngen
  rw [hs]
  obtain ⟨_, _, _, i4, _⟩ := runRL_inv (c := dc) hS rfl ho hnp hdf p1 p2 hs
  obtain ⟨b, hb, _⟩ := i4 (by omega)
  simp only [finish, hb]
  split_ifs <;> exact ⟨_, rfl⟩

/-- **C77, refused calls.** `evolute` before `learn` raises; after a `learn` that recorded fewer individuals than `npop_rl` it raises too. -/
theorem C77_refused {c : Conf K} {F CR : K} {ngen : ℕ} {ord : List K → List ℕ} {d : Draws K} {f : List K → K} :
    ackde c F CR ngen ord d f fresh = .error .valueError ∧
    (∀ (o : Obj K) rows, o.data = some rows → rows.length < c.npopRl → ∃ e, ackde c F CR ngen ord d f o = .error e) ∧
    (∀ o : Obj K, o.data = some [] → c.initRl = true → ackde c F CR ngen ord d f o = .error .valueError) := by
  refine ⟨by simp [ackde, fresh], ?_, ?_⟩
  · intro o rows hdat hlt
    cases h : ackde c F CR ngen ord d f o with
    | error e => exact ⟨e, rfl⟩
    | ok r =>
      exfalso
      unfold ackde at h
      rw [hdat] at h
      by_cases hf : o.flag = false
      · rw [if_pos hf] at h; cases h
      rw [if_neg hf] at h
      simp only at h
      split at h
      · cases h
      split at h
      · cases h
      rename_i data hdata
      split at h
      · cases h
      rename_i s hs
      have hdl := (numRows_get hdata).1
      cases ngen with
      | zero => cases hs; cases h
      | succ n =>
        simp only [runRL] at hs
        split at hs
        · cases hs
        · obtain ⟨s1, rl, _, h2, _⟩ := genRL_eq hs
          unfold mixRows at h2
          rw [if_pos (by omega)] at h2
          cases h2
  · intro o hdat hi
    unfold ackde
    rw [hdat]
    by_cases hf : o.flag = false
    · rw [if_pos hf]
    · rw [if_neg hf]
      simp [start, hi, startRows]

/-- **C77, defect.** With `init_pop_rl` (the default) and a grid of strings `evolute` always fails: the rows, already encoded by `learn`, are checked against
the grid's values once more. -/
theorem C77_string_grid {c : Conf K} (hi : c.initRl = true) (hn : 0 < c.npop) {k : String} {vals : List (Val K)} (hk : (k, Spec.grid vals) ∈ c.orig)
    (hv : ∀ v ∈ vals, ∃ s, v = Val.str s) {F CR : K} {ngen : ℕ} {ord : List K → List ℕ} {d : Draws K} {f : List K → K} {o : Obj K}
    {rows : List (Row K)} (hdat : o.data = some rows) (hrows : RowsOK c.orig rows) : ∃ e, ackde c F CR ngen ord d f o = .error e := by
  have hno : ∀ {bs : Bounds K} {x w : Row K}, (k, Spec.grid vals) ∈ bs → Encodes bs x w → ¬ InSpace bs w := by
    intro bs
    induction bs with
    | nil => intro x w hk; cases hk
    | cons b bs ih =>
      intro x w hk he hw
      obtain ⟨k', s⟩ := b
      cases x with
      | nil => cases s <;> exact he.elim
      | cons x xs =>
        cases w with
        | nil => cases s <;> exact he.elim
        | cons w ws =>
          obtain ⟨hw1, hw2⟩ := List.forall₂_cons.1 hw
          rcases List.mem_cons.1 hk with hk | hk
          · cases hk
            obtain ⟨⟨i, u, rfl, _⟩, _⟩ := he
            obtain ⟨v, h1, h2⟩ := hw1
            obtain ⟨s, rfl⟩ := hv v h1
            simp [Val.pyEq, Val.canon] at h2
          · refine ih (x := xs) hk ?_ hw2
            cases s <;> exact he.2
  cases h : ackde c F CR ngen ord d f o with
  | error e => exact ⟨e, rfl⟩
  | ok r =>
    exfalso
    unfold ackde at h
    rw [hdat] at h
    by_cases hf : o.flag = false
    · rw [if_pos hf] at h; cases h
    rw [if_neg hf] at h
    simp only at h
    split at h
    · cases h
    rename_i pop hpop
    unfold start at hpop
    rw [if_pos hi] at hpop
    split at hpop
    · cases hpop
    rename_i st hst
    obtain ⟨s1, s2, s3⟩ := startRows_ok hst
    obtain ⟨p1, p2⟩ := initPop_get hpop
    have hr := List.getElem?_eq_getElem (l := st) (i := 0) (by omega)
    have hmem := List.mem_of_getElem? (s3 0 _ hr)
    obtain ⟨x, hx, he⟩ := hrows _ hmem
    obtain ⟨n1, n2⟩ := he.notNp
    exact hno hk he ((C06_check_iff n1 n2).1 (p2 0 _ hr).1)

/-- **C77, defect.** With a grid whose values are themselves numbers the second encoding goes unnoticed and changes the individual: the agent visited the
value 1, the run starts from 0. -/
theorem C77_encoded_twice : ∃ (bs : Bounds ℚ) (x w y : Row ℚ) (v : List ℚ), InSpace bs x ∧ Encodes bs x w ∧ initPop bs [w] = .ok [v] ∧
    decodeIndv (encodeBounds bs).2 bs (v.map Val.float) = .ok y ∧ ¬ SameIndv y x := by
  refine ⟨[("x", .grid [.pyint 1, .pyint 0])], [.pyint 1], [.float 0], [.pyint 0], [1], ?_, ?_, by decide +kernel, by decide +kernel, ?_⟩
  · exact .cons ⟨.pyint 1, by simp, rfl⟩ .nil
  · exact ⟨⟨0, .pyint 1, by simp, rfl, rfl, by omega⟩, trivial⟩
  · intro h
    have := (List.forall₂_cons.1 h).1
    simp [Val.pyEq, Val.canon] at this

/-! ### PPO-ES -/

theorem ppoes_ok {c : Conf K} {a : EsArgs K} {ngen : ℕ} {d : EsDraws K} {f : List K → K} {o : Obj K} {rows : List (Row K)} (hdat : o.data = some rows)
    {r : ES.Result K} (h : ppoes c a ngen d f o = .ok r) :
    ∃ pop data, start c d.idx d.pop0 rows = .ok pop ∧ numRows rows = .ok data ∧ (ngen ≠ 0 → c.npopRl ≤ data.length) ∧
      ES.evolute (esConf c a ngen) c.minMode f d.dr (fun g => (List.range c.npopRl).filterMap (fun i => data[d.smp g i % data.length]?))
        (pop.mapIdx (fun i x => (x, d.strat i))) = .ok r := by
  unfold ppoes at h
  rw [hdat] at h
  by_cases hf : o.flag = false
  · rw [if_pos hf] at h; cases h
  rw [if_neg hf] at h
  simp only at h
  split at h
  · cases h
  rename_i pop hpop
  split at h
  · cases h
  rename_i data hdata
  split_ifs at h with hh
  exact ⟨pop, data, hpop, hdata, fun hn => by by_contra hcon; exact hh ⟨hn, by omega⟩, h⟩

theorem rl_len {S : Space K} {data : List (List K)} (hdf : ∀ x ∈ data, S.Feasible x) (n : ℕ) (smp : ℕ → ℕ) :
    ((List.range n).filterMap (fun i => data[smp i % data.length]?)).length ≤ n ∧
    ∀ v ∈ (List.range n).filterMap (fun i => data[smp i % data.length]?), v.length = S.bounds.length := by
  refine ⟨(List.length_filterMap_le _ _).trans (by simp), ?_⟩
  intro v hv
  obtain ⟨i, _, hi⟩ := List.mem_filterMap.1 hv
  exact (hdf v (List.mem_of_getElem? hi)).1.length_eq

theorem strat_pop {S : Space K} {smin smax : K} {pop : List (List K)} (hp : ∀ x ∈ pop, S.Feasible x) {strat : ℕ → List K}
    (hst : ∀ i, (strat i).length = S.bounds.length ∧ ∀ v ∈ strat i, smin ≤ v ∧ v ≤ smax) :
    ∀ p ∈ pop.mapIdx (fun i x => (x, strat i)), p.1.length = S.bounds.length ∧ p.2.length = S.bounds.length ∧ ∀ v ∈ p.2, smin ≤ v ∧ v ≤ smax := by
  intro p hp'
  obtain ⟨i, hi, rfl⟩ := List.mem_mapIdx.1 hp'
  exact ⟨(hp _ (List.getElem_mem hi)).1.length_eq, hst i⟩

/-- **C78.** `PPOES.evolute` after `learn`, with fewer RL individuals per generation than survivors (`npop_rl < mu`): the returned point is feasible, has the
returned fitness and is the best of all offspring evaluated; `npop` evaluations a generation; exact histories. -/
theorem C78_ppoes {c : Conf K} (hS : (space c.orig).OK) (hg : hasGrid c.orig = false ∨ c.initRl = false) {a : EsArgs K} (hs : a.smin ≤ a.smax)
    (hmu : c.npopRl < a.mu) {ngen : ℕ} {d : EsDraws K} (hst : ∀ i, (d.strat i).length = c.orig.length ∧ ∀ v ∈ d.strat i, a.smin ≤ v ∧ v ≤ a.smax)
    {f : List K → K} {o : Obj K} {rows : List (Row K)} (hdat : o.data = some rows) (hrows : RowsOK c.orig rows)
    (hp0 : c.initRl = false → d.pop0.length = c.npop ∧ ∀ x ∈ d.pop0, (space c.orig).Feasible x) {r : ES.Result K} (h : ppoes c a ngen d f o = .ok r) :
    IsBest c.minMode f r.log r.x r.y ∧ (space c.orig).Feasible r.x ∧ r.log.length = c.npop * ngen ∧ (∀ x ∈ r.log, (space c.orig).Feasible x) ∧
    BlockBest c.minMode f 0 c.npop r.log r.locals ∧ HistBest c.minMode f 0 c.npop r.log r.global ∧ r.global.Pairwise (NotWorse c.minMode) ∧
    r.global.getLast? = some r.y := by
  obtain ⟨pop, data, h1, h2, h3, h4⟩ := ppoes_ok hdat h
  obtain ⟨p1, p2, p3⟩ := start_ok hg hrows.feas hp0 h1
  have hdf := numRows_feas hrows.feas h2
  have hb : (space c.orig).bounds.length = c.orig.length := by
    have := congrArg List.length (C05_encoded_bounds c.orig).1
    simpa [space] using this
  have := ES.C14_evolute (c := esConf c a ngen) hS hs (fun g => (rl_len hdf c.npopRl (d.smp g)).2)
    (fun g => lt_of_le_of_lt (rl_len hdf c.npopRl (d.smp g)).1 hmu) (strat_pop p2 (by rw [hb]; exact hst)) h4
  exact ⟨this.1, this.2.1, this.2.2.1, this.2.2.2.1, this.2.2.2.2.1, this.2.2.2.2.2.2.1, this.2.2.2.2.2.2.2.1, this.2.2.2.2.2.2.2.2.1⟩

/-- **C78, no exception.** With `2 ≤ mu ≤ npop`, `npop_rl ≤ mu` and at least `npop_rl` recorded individuals, `PPOES.evolute` returns. -/
theorem C78_total {c : Conf K} (hS : (space c.orig).OK) (hg : hasGrid c.orig = false ∨ c.initRl = false) {a : EsArgs K} (hs : a.smin ≤ a.smax)
    (hmu : c.npopRl ≤ a.mu) (hmu2 : 2 ≤ a.mu) (hmul : a.mu ≤ c.npop) (hpb : a.cxpb + a.mutpb ≤ 1) (hcx : a.blend = true ∨ 2 ≤ c.orig.length) {ngen : ℕ}
    (hn : 1 ≤ ngen) {d : EsDraws K} (hst : ∀ i, (d.strat i).length = c.orig.length ∧ ∀ v ∈ d.strat i, a.smin ≤ v ∧ v ≤ a.smax)
    (hd : ∀ g i, ES.PickOK (space c.orig) (d.dr g i).md) {f : List K → K} {o : Obj K} (hfl : o.flag = true) {rows : List (Row K)} (hdat : o.data = some rows)
    (hrows : RowsOK c.orig rows) (hne : c.initRl = true → rows ≠ []) (hlen : c.npopRl ≤ rows.length)
    (hp0 : c.initRl = false → d.pop0.length = c.npop ∧ ∀ x ∈ d.pop0, (space c.orig).Feasible x) : ∃ r, ppoes c a ngen d f o = .ok r := by
  obtain ⟨pop, hpop⟩ := start_total hg hrows hne (idx := d.idx) (pop0 := d.pop0)
  obtain ⟨data, hdata⟩ := numRows_total hrows.feas
  obtain ⟨p1, p2, _⟩ := start_ok hg hrows.feas hp0 hpop
  have hdf := numRows_feas hrows.feas hdata
  have hdl : data.length = rows.length := (numRows_get hdata).1
  have hb : (space c.orig).bounds.length = c.orig.length := by
    have := congrArg List.length (C05_encoded_bounds c.orig).1
    simpa [space] using this
  unfold ppoes
  rw [hdat, if_neg (by rw [hfl]; simp)]
  simp only [hpop, hdata]
  rw [if_neg (by omega)]
  exact ES.C14_total (c := esConf c a ngen) hS hs hmul hmu2 hpb hn (by show _ ∨ 2 ≤ (space c.orig).bounds.length; rw [hb]; exact hcx) hd
    (fun g => (rl_len hdf c.npopRl (d.smp g)).2) (fun g => (rl_len hdf c.npopRl (d.smp g)).1.trans hmu) (by rw [List.length_mapIdx]; exact p1)
    (strat_pop p2 (by rw [hb]; exact hst))

/-- **C78, defect.** The constructor accepts every `npop_rl < npop`, but with more RL individuals than survivors every run raises (`mu` is `npop // 2`
unless given). -/
theorem C78_too_many {c : Conf K} {a : EsArgs K} (hmu : a.mu < c.npopRl) {ngen : ℕ} {d : EsDraws K} {f : List K → K} {o : Obj K} {rows : List (Row K)}
    (hdat : o.data = some rows) : ∃ e, ppoes c a ngen d f o = .error e := by
  cases h : ppoes c a ngen d f o with
  | error e => exact ⟨e, rfl⟩
  | ok r =>
    exfalso
    obtain ⟨pop, data, h1, h2, h3, h4⟩ := ppoes_ok hdat h
    unfold ES.evolute at h4
    split_ifs at h4
    split at h4
    · cases h4
    rename_i s hs
    cases hng : ngen with
    | zero =>
      have : (esConf c a ngen).ngen = 0 := hng
      rw [this] at hs
      cases hs
      cases h4
    | succ n =>
      have : (esConf c a ngen).ngen = n + 1 := hng
      rw [this] at hs
      simp only [ES.run] at hs
      split at hs
      · cases hs
      rename_i s0 hs0
      unfold ES.gen at hs
      split at hs
      · cases hs
      rename_i os hos
      simp only at hs
      rw [ES.mixRL, if_pos] at hs
      · cases hs
      · rw [range_filterMap_length (d.smp n) (h3 (by omega)), (ES.C10_select _ _).1]
        exact lt_of_le_of_lt (min_le_left _ _) hmu

/-! ### Concrete runs -/

/-- Insertion sort of the indices by score. -/
def exOrd (l : List K) : List ℕ := (List.range l.length).insertionSort (fun i j => l[i]?.getD 0 ≤ l[j]?.getD 0)

theorem exOrd_ok : ArgsortOK (exOrd (K := K)) := by
  intro l
  refine ⟨List.perm_insertionSort _ _, ?_⟩
  have : Std.Total (fun i j : ℕ => l[i]?.getD 0 ≤ l[j]?.getD 0) := ⟨fun i j => le_total _ _⟩
  have : IsTrans ℕ (fun i j : ℕ => l[i]?.getD 0 ≤ l[j]?.getD 0) := ⟨fun i j k h1 h2 => le_trans h1 h2⟩
  refine (List.pairwise_insertionSort (fun i j : ℕ => l[i]?.getD 0 ≤ l[j]?.getD 0) _).imp ?_
  intro i j h a b ha hb
  rw [ha, hb] at h
  exact h

/-- Insertion sort of the recorded rows, best first. -/
def exSrt (m : Bool) (l : List (Row K × K)) : List (Row K × K) := if m then l.insertionSort (fun p q => p.2 ≤ q.2) else l.insertionSort (fun p q => q.2 ≤ p.2)

theorem exSrt_ok : SortOK (exSrt (K := K)) := by
  intro m l
  have h1 : Std.Total (fun p q : Row K × K => p.2 ≤ q.2) := ⟨fun i j => le_total _ _⟩
  have h2 : IsTrans (Row K × K) (fun p q => p.2 ≤ q.2) := ⟨fun i j k h1 h2 => le_trans h1 h2⟩
  have h3 : Std.Total (fun p q : Row K × K => q.2 ≤ p.2) := ⟨fun i j => le_total _ _⟩
  have h4 : IsTrans (Row K × K) (fun p q => q.2 ≤ p.2) := ⟨fun i j k h1 h2 => le_trans h2 h1⟩
  unfold exSrt
  cases m
  · exact ⟨List.perm_insertionSort _ _, (List.pairwise_insertionSort (fun p q : Row K × K => q.2 ≤ p.2) l).imp (fun h => by simpa [NotWorse] using h)⟩
  · exact ⟨List.perm_insertionSort _ _, (List.pairwise_insertionSort (fun p q : Row K × K => p.2 ≤ q.2) l).imp (fun h => by simpa [NotWorse] using h)⟩

/-- What `learn` leaves for `evolute`. -/
theorem learn_rows {c : Conf K} {srt : Bool → List (Row K × K) → List (Row K × K)} (hs : SortOK srt) {em : Option String} {filter : ℕ} {xs : List (Row K)}
    {rs : List K} (hx : ∀ x ∈ xs, InSpace c.orig x) {o o' : Obj K} {df : List (Row K × K)} (h : learn c srt em filter xs rs o = (o', .ok df)) :
    o'.flag = true ∧ ∃ rows, o'.data = some rows ∧ RowsOK c.orig rows ∧ rows.length = min xs.length filter := by
  obtain ⟨_, h2, h3, h4, _, kept, dropped, d, k1, k2, k3, k4, k5, k6⟩ := C76_learn hs h
  have hl : df.length = xs.length := by rw [h3.length_eq, List.length_zip, h4, min_self]
  refine ⟨h2, d, k4, ?_, by rw [k5, k2, hl]⟩
  intro w hw
  obtain ⟨i, hi⟩ := List.mem_iff_getElem?.1 hw
  have hk := List.getElem?_eq_getElem (l := kept) (i := i) (by have := (List.getElem?_eq_some_iff.1 hi).1; omega)
  generalize kept[i]'(by have := (List.getElem?_eq_some_iff.1 hi).1; omega) = q at hk
  obtain ⟨w', g1, g2⟩ := k6 i q hk
  rw [hi] at g1
  cases g1
  have hq : (q.1, q.2) ∈ xs.zip rs := h3.mem_iff.1 (by rw [k1]; exact List.mem_append_left _ (List.mem_of_getElem? hk))
  exact ⟨q.1, hx _ (List.of_mem_zip hq).1, g2⟩

/-- **C77, from `learn` to the result.** An agent that visited at least `npop_rl` (and one) members of a space without grid variables, then `evolute`: it
returns the best of everything it evaluated, which is at least as good as every individual drawn for the start. -/
theorem C77_learn_evolute {c : Conf K} (hS : (space c.orig).OK) (hc : construct c = .ok ()) (hg : hasGrid c.orig = false) (hi : c.initRl = true)
    {srt : Bool → List (Row K × K) → List (Row K × K)} (hs : SortOK srt) {em : Option String} (hm : em.getD "max" = (if c.minMode then "min" else "max"))
    {filter : ℕ} (hf : 0 < filter) (hfl : c.npopRl ≤ filter) {xs : List (Row K)} {rs : List K} (hl : xs.length = rs.length) (hne : xs ≠ [])
    (hlen : c.npopRl ≤ xs.length) (hx : ∀ x ∈ xs, InSpace c.orig x) {F CR : K} {ngen : ℕ} (hn : 0 < ngen) {ord : List K → List ℕ} (ho : ArgsortOK ord)
    {d : Draws K} (hd : ∀ g j, (d.dr g j).i1 < c.npop ∧ (d.dr g j).i2 < c.npop ∧ (d.dr g j).i3 < c.npop) (f : List K → K) :
    ∃ o df r rows, learn c srt em filter xs rs fresh = (o, .ok df) ∧ o.data = some rows ∧ ackde c F CR ngen ord d f o = .ok r ∧
      IsBest c.minMode f r.log r.x r.y ∧ (space c.orig).Feasible r.x ∧
      ∀ i < c.npop, ∃ w x, rows[d.idx i % rows.length]? = some w ∧ nums w = .ok x ∧ x ∈ r.log ∧ NotWorse c.minMode (f x) r.y := by
  obtain ⟨o, df, hlrn⟩ := (C76_total hs (fresh (K := K)) (filter := filter)).1 hm hl hx
  obtain ⟨h1, rows, h2, h3, h4⟩ := learn_rows hs hx hlrn
  have hxl : 0 < xs.length := List.length_pos_iff.2 hne
  have hrl : 0 < rows.length := by rw [h4]; exact lt_min hxl hf
  obtain ⟨r, hr⟩ := C77_total hS hc (.inl hg) hn ho (F := F) (CR := CR) (f := f) (d := d) h1 h2 h3 (fun _ => List.length_pos_iff.1 hrl)
    (by rw [h4]; exact le_min hlen hfl) (by rw [hi]; simp) hd
  obtain ⟨a1, a2, _, _, _, _, a7, _⟩ := C77_ackde hS hc (.inl hg) ho h2 h3.feas (by rw [hi]; simp) hr
  exact ⟨o, df, r, rows, hlrn, h2, hr, a1, a2, a7 hi⟩

def exBs : Bounds ℚ := [("x", .float (-5) 5), ("n", .int 0 3)]
def exC : Conf ℚ := { orig := exBs, minMode := true, npop := 4, npopRl := 2, initRl := true }
def exXs : List (Row ℚ) := [[.float 4, .npint 3], [.float 1, .npint 1], [.float (-2), .npint 2]]
def exRs : List ℚ := [25, 2, 8]
def exFit : List ℚ → ℚ := fun x => (x.map (fun v => v * v)).sum
def exD : Draws ℚ := { idx := fun i => i, smp := fun g i => g + i, pop0 := [], dr := fun g j => { i1 := (j + 1) % 4, i2 := (j + 2) % 4, i3 := (j + 3) % 4, cross := fun d => if d = j then 1 / 10 else 1, discT := fun _ => (1, 0), discV := fun _ => (1, 0) } }

example : (space exBs).OK := Space.ok_of_okB (by decide +kernel)
example : construct exC = .ok () := by decide +kernel
example : hasGrid exBs = false := by decide +kernel
example : ∀ x ∈ exXs, InSpace exBs x := by
  intro x hx
  simp only [exXs, List.mem_cons, List.not_mem_nil, or_false] at hx
  rcases hx with rfl | rfl | rfl
  · exact .cons ⟨4, rfl, by norm_num, by norm_num⟩ (.cons ⟨3, by simp [Val.num?], by norm_num, by norm_num⟩ .nil)
  · exact .cons ⟨1, rfl, by norm_num, by norm_num⟩ (.cons ⟨1, by simp [Val.num?], by norm_num, by norm_num⟩ .nil)
  · exact .cons ⟨-2, rfl, by norm_num, by norm_num⟩ (.cons ⟨2, by simp [Val.num?], by norm_num, by norm_num⟩ .nil)
example : ∀ g j, (exD.dr g j).i1 < exC.npop ∧ (exD.dr g j).i2 < exC.npop ∧ (exD.dr g j).i3 < exC.npop := by
  intro g j
  exact ⟨Nat.mod_lt _ (show 0 < 4 by omega), Nat.mod_lt _ (show 0 < 4 by omega), Nat.mod_lt _ (show 0 < 4 by omega)⟩

/-- The agent visited three points; the two best are kept; the run starts from them. -/
example : (learn exC exSrt (some "min") 2 exXs exRs fresh).1.data = some [[.float 1, .float 1], [.float (-2), .float 2]] := by decide +kernel
example : (match ackde exC (1 / 2) (1 / 2) 2 exOrd exD exFit (learn exC exSrt (some "min") 2 exXs exRs fresh).1 with
    | .ok r => decide (r.log.length = 16 ∧ r.y = exFit r.x ∧ r.y ≤ 2) | _ => false) = true := by decide +kernel

/-- **C77, defect.** The best individual the agent found can be lost: the start is drawn with replacement, and the RL individuals put in after the last
generation are never evaluated. -/
theorem C77_best_lost : ∃ (c : Conf ℚ) (d : Draws ℚ) (o : Obj ℚ) (rows : List (Row ℚ)) (w : Row ℚ) (x : List ℚ) (r : DE.Result ℚ), construct c = .ok () ∧
    o.data = some rows ∧ RowsOK c.orig rows ∧ ArgsortOK (exOrd (K := ℚ)) ∧ ackde c (1 / 2) (1 / 2) 1 exOrd d exFit o = .ok r ∧
    w ∈ rows ∧ nums w = .ok x ∧ c.minMode = true ∧ exFit x < r.y := by
  let c : Conf ℚ := { orig := [("x", .float (-5) 5)], minMode := true, npop := 4, npopRl := 2, initRl := true }
  let d : Draws ℚ := { exD with idx := fun _ => 1 }
  let o : Obj ℚ := { flag := true, data := some [[.float 1], [.float 5]] }
  have key : (match ackde c (1 / 2) (1 / 2) 1 exOrd d exFit o with | .ok r => decide (1 < r.y) | _ => false) = true := by decide +kernel
  split at key
  · rename_i r hr
    simp only [decide_eq_true_eq] at key
    refine ⟨c, d, o, [[.float 1], [.float 5]], [.float 1], [1], r, rfl, rfl, ?_, exOrd_ok, hr, by simp, rfl, rfl, ?_⟩
    · intro w hw
      simp only [List.mem_cons, List.not_mem_nil, or_false] at hw
      rcases hw with rfl | rfl
      · exact ⟨[.float 1], .cons ⟨1, rfl, by norm_num, by norm_num⟩ .nil, ⟨rfl, fun n => by simp⟩, trivial⟩
      · exact ⟨[.float 5], .cons ⟨5, rfl, by norm_num, by norm_num⟩ .nil, ⟨rfl, fun n => by simp⟩, trivial⟩
    · simpa [exFit] using key
  · cases key

def exA : EsArgs ℚ := { mu := 3, blend := false, alpha := 0, cxpb := 6 / 10, mutpb := 3 / 10, smin := 1 / 100, smax := 1 / 2 }
def exE : EsDraws ℚ := { idx := fun i => i, smp := fun g i => g + i, pop0 := [], strat := fun _ => [1 / 10, 1 / 2], dr := ES.exDr }

example : (match ppoes exC exA 2 exE exFit (learn exC exSrt (some "min") 2 exXs exRs fresh).1 with
    | .ok r => decide (r.log.length = 8 ∧ r.y = exFit r.x) | _ => false) = true := by decide +kernel
example : ∀ i, (exE.strat i).length = exBs.length ∧ ∀ v ∈ exE.strat i, exA.smin ≤ v ∧ v ≤ exA.smax := fun _ => by show ([1 / 10, 1 / 2] : List ℚ).length = exBs.length ∧ ∀ v ∈ ([1 / 10, 1 / 2] : List ℚ), exA.smin ≤ v ∧ v ≤ exA.smax; decide +kernel

/-- **C78, defect.** With the default `mu` (`npop // 2`) and as many RL individuals per generation — accepted by the constructor — the returned individual was
never evaluated and its fitness is not the returned one. -/
theorem C78_mismatch : ∃ (c : Conf ℚ) (a : EsArgs ℚ) (d : EsDraws ℚ) (o : Obj ℚ) (r : ES.Result ℚ), construct c = .ok () ∧ a.mu = muOf c none ∧
    ppoes c a 1 d exFit o = .ok r ∧ r.x ∉ r.log ∧ r.y ≠ exFit r.x := by
  let a : EsArgs ℚ := { exA with mu := 2 }
  let o : Obj ℚ := { flag := true, data := some [[.float 4, .float 3], [.float 5, .float 3]] }
  have key : (match ppoes exC a 1 exE exFit o with | .ok r => decide (r.x ∉ r.log ∧ r.y ≠ exFit r.x) | _ => false) = true := by decide +kernel
  split at key
  · rename_i r hr
    simp only [decide_eq_true_eq] at key
    exact ⟨exC, a, exE, o, r, by decide +kernel, by decide +kernel, hr, key⟩
  · cases key

/-- **C78, defect.** The hyperparameter `alpha` of PPO-ES is read but not handed to the evolution strategy: every run is a run with any other `alpha`, and even
with `alpha = 0` ("children between the parents") blending the only two individuals, 1 and -2, evaluates 5/2 (half the distance beyond the parent). -/
theorem C78_alpha_ignored :
    (∀ (c : Conf ℚ) (a : EsArgs ℚ) (z : ℚ) (ngen : ℕ) (d : EsDraws ℚ) (f : List ℚ → ℚ) (o : Obj ℚ), ppoes c { a with alpha := z } ngen d f o = ppoes c a ngen d f o) ∧
    ∃ (c : Conf ℚ) (a : EsArgs ℚ) (d : EsDraws ℚ) (r : ES.Result ℚ), construct c = .ok () ∧ a.alpha = 0 ∧ a.blend = true ∧ a.mutpb = 0 ∧
      ppoes c a 1 d exFit { flag := true, data := some [[.float 1, .float 0], [.float (-2), .float 0]] } = .ok r ∧ [5 / 2, 0] ∈ r.log := by
  refine ⟨fun _ _ _ _ _ _ _ => rfl, ?_⟩
  let a : EsArgs ℚ := { exA with blend := true, cxpb := 1, mutpb := 0 }
  let dr : ℕ → ℕ → ES.Draw ℚ := fun _ _ => { rn := 0, i1 := 0, i2 := 0, a := 0, b := 0, u := fun _ => 0, v := fun _ => 0, md := { e := fun _ => 1, t := fun _ => 1, pick := fun _ => 0, g := fun _ => 0 } }
  have key : (match ppoes exC a 1 { exE with dr := dr } exFit { flag := true, data := some [[.float 1, .float 0], [.float (-2), .float 0]] } with
      | .ok r => decide ([5 / 2, 0] ∈ r.log) | _ => false) = true := by decide +kernel
  split at key
  · rename_i r hr
    simp only [decide_eq_true_eq] at key
    exact ⟨exC, a, { exE with dr := dr }, r, by decide +kernel, rfl, rfl, rfl, hr, key⟩
  · cases key

/-- **C78, defect.** `PPOES.evolute` can return something worse than every individual the agent handed over: the start is not counted. -/
theorem C78_start_lost : ∃ (c : Conf ℚ) (a : EsArgs ℚ) (d : EsDraws ℚ) (o : Obj ℚ) (rows : List (Row ℚ)) (r : ES.Result ℚ), construct c = .ok () ∧ c.npopRl < a.mu ∧
    o.data = some rows ∧ ppoes c a 1 d exFit o = .ok r ∧ ∀ w ∈ rows, ∃ x, nums w = .ok x ∧ exFit x < r.y := by
  let a : EsArgs ℚ := { exA with cxpb := 0, mutpb := 1 }
  let o : Obj ℚ := { flag := true, data := some [[.float 0, .float 0], [.float 0, .float 0]] }
  have key : (match ppoes exC a 1 exE exFit o with | .ok r => decide (0 < r.y) | _ => false) = true := by decide +kernel
  split at key
  · rename_i r hr
    simp only [decide_eq_true_eq] at key
    refine ⟨exC, a, exE, o, [[.float 0, .float 0], [.float 0, .float 0]], r, by decide +kernel, by decide +kernel, rfl, hr, ?_⟩
    intro w hw
    simp only [List.mem_cons, List.not_mem_nil, or_false, or_self] at hw
    subst hw
    exact ⟨[0, 0], rfl, by simpa [exFit] using key⟩
  · cases key

end
end Neorl.Informed
