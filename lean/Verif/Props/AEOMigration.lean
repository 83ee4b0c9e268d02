import Verif.Props.AEO

/-!
# Property theorems C41: migration between the populations of the ensemble
-/

set_option linter.unusedSectionVars false
set_option linter.unusedVariables false

namespace Neorl.AEO

/-! ### Popping several indices -/

/-- The indices below `n` that are not popped, in order. -/
def kept (n : ℕ) (is : List ℕ) : List ℕ := (List.range n).filter (fun i => decide (i ∉ is))

theorem kept_perm {n : ℕ} {is : List ℕ} (hn : is.Nodup) (hlt : ∀ i ∈ is, i < n) : (is ++ kept n is).Perm (List.range n) := by
  rw [List.perm_ext_iff_of_nodup]
  · intro a
    simp only [kept, List.mem_append, List.mem_filter, List.mem_range, decide_eq_true_eq]
    constructor
    · rintro (h | h)
      · exact hlt a h
      · exact h.1
    · intro h
      by_cases ha : a ∈ is
      · exact Or.inl ha
      · exact Or.inr ⟨h, ha⟩
  · rw [List.nodup_append]
    refine ⟨hn, List.nodup_range.filter _, ?_⟩
    intro a ha b hb hab
    subst hab
    simp [kept] at hb
    exact hb.2 ha
  · exact List.nodup_range

theorem range_filterMap {α : Type} (l : List α) : (List.range l.length).filterMap (fun i => l[i]?) = l := by
  induction l using List.reverseRecOn with
  | nil => rfl
  | append_singleton l a ih =>
    rw [List.length_append, List.length_singleton, List.range_succ, List.filterMap_append]
    congr 1
    · conv_rhs => rw [← ih]
      apply List.filterMap_congr
      intro i hi
      rw [List.getElem?_append_left (List.mem_range.1 hi)]
    · simp

theorem popAll_ok {α : Type} {is : List ℕ} : ∀ {l : List α}, is.Pairwise (fun a b => b < a) → (∀ i ∈ is, i < l.length) →
    popAll is l = .ok (is.filterMap (fun i => l[i]?), (kept l.length is).filterMap (fun i => l[i]?)) := by
  induction is with
  | nil =>
    intro l _ _
    simp only [popAll, List.filterMap_nil, kept, List.not_mem_nil, not_false_eq_true, decide_true, List.filter_true]
    rw [range_filterMap]
  | cons i is ih =>
    intro l hp hlt
    obtain ⟨hp1, hp2⟩ := List.pairwise_cons.1 hp
    have hi : i < l.length := hlt i (by simp)
    have hle : (l.eraseIdx i).length = l.length - 1 := List.length_eraseIdx_of_lt hi
    simp only [popAll, List.getElem?_eq_getElem hi]
    rw [ih hp2 (fun j hj => by rw [hle]; have := hp1 j hj; omega)]
    simp only [Except.ok.injEq, Prod.mk.injEq]
    constructor
    · rw [List.filterMap_cons, List.getElem?_eq_getElem hi]
      congr 1
      apply List.filterMap_congr
      intro j hj
      rw [List.getElem?_eraseIdx_of_lt (hp1 j hj)]
    · rw [hle]
      obtain ⟨m, hm⟩ : ∃ m, l.length = i + (1 + m) := ⟨l.length - i - 1, by omega⟩
      rw [hm, show i + (1 + m) - 1 = i + m by omega]
      unfold kept
      rw [List.range_add, List.range_add, List.range_add (n := 1)]
      simp only [List.map_append, List.filter_append, List.filterMap_append, List.range_one, List.map_cons, List.map_nil, List.map_map]
      congr 1
      · have e : List.filter (fun k => decide (k ∉ is)) (List.range i) = List.filter (fun k => decide (k ∉ i :: is)) (List.range i) := by
          apply List.filter_congr
          intro k hk
          have := List.mem_range.1 hk
          have hne : k ≠ i := by omega
          simp [hne]
        rw [← e]
        apply List.filterMap_congr
        intro k hk
        have := List.mem_range.1 (List.mem_of_mem_filter hk)
        rw [List.getElem?_eraseIdx_of_lt this]
      · have f1 : List.filter (fun k => decide (k ∉ is)) (List.map (fun x => i + x) (List.range m)) = List.map (fun x => i + x) (List.range m) := by
          rw [List.filter_eq_self]
          intro k hk
          obtain ⟨x, _, rfl⟩ := List.mem_map.1 hk
          have : i + x ∉ is := fun h => by have := hp1 _ h; omega
          simpa using this
        have f2 : List.filter (fun k => decide (k ∉ i :: is)) (List.map ((fun x => i + x) ∘ (fun x => 1 + x)) (List.range m)) =
            List.map ((fun x => i + x) ∘ (fun x => 1 + x)) (List.range m) := by
          rw [List.filter_eq_self]
          intro k hk
          obtain ⟨x, _, rfl⟩ := List.mem_map.1 hk
          simp only [Function.comp]
          have h1 : i + (1 + x) ∉ is := fun h => by have := hp1 _ h; omega
          have h2 : i + (1 + x) ≠ i := by omega
          simp [h1]
        rw [f1, f2]
        simp only [Nat.add_zero, List.mem_cons, true_or, not_true_eq_false, decide_false, Bool.false_eq_true, not_false_eq_true,
          List.filter_cons_of_neg, List.filter_nil, List.filterMap_nil, List.nil_append, List.filterMap_map]
        apply List.filterMap_congr
        intro x _
        simp only [Function.comp]
        rw [List.getElem?_eraseIdx_of_ge (by omega), show i + x + 1 = i + (1 + x) by omega]

theorem length_filterMap_getElem? {α : Type} {l : List α} {is : List ℕ} (h : ∀ i ∈ is, i < l.length) :
    (is.filterMap (fun i => l[i]?)).length = is.length := by
  induction is with
  | nil => rfl
  | cons i is ih =>
    rw [List.filterMap_cons, List.getElem?_eq_getElem (h i (by simp))]
    simp [ih (fun j hj => h j (by simp [hj]))]

theorem getElem?_filterMap_getElem? {α : Type} {l : List α} {is : List ℕ} (h : ∀ i ∈ is, i < l.length) (k : ℕ) :
    (is.filterMap (fun i => l[i]?))[k]? = is[k]?.bind (fun i => l[i]?) := by
  induction is generalizing k with
  | nil => simp
  | cons i is ih =>
    rw [List.filterMap_cons, List.getElem?_eq_getElem (h i (by simp))]
    cases k with
    | zero => simp [List.getElem?_eq_getElem (h i (by simp))]
    | succ k => simpa using ih (fun j hj => h j (by simp [hj])) k

theorem popDesc_ok {α : Type} {idx : List ℕ} {l : List α} (hn : idx.Nodup) (hlt : ∀ i ∈ idx, i < l.length) :
    ∃ rem, popDesc idx l = .ok (rem, (kept l.length idx).filterMap (fun i => l[i]?)) ∧ rem.length = idx.length ∧
      (rem ++ (kept l.length idx).filterMap (fun i => l[i]?)).Perm l := by
  have hp := sortAsc_perm id idx
  have hpr : (sortAsc id idx).reverse.Perm idx := (List.reverse_perm _).trans hp
  have hs : (sortAsc id idx).reverse.Pairwise (fun a b => b < a) := by
    rw [List.pairwise_reverse]
    have h1 := sortAsc_sorted (K := ℕ) id idx
    have h2 : (sortAsc (K := ℕ) id idx).Nodup := hp.nodup_iff.2 hn
    exact (h1.and h2).imp (fun h => lt_of_le_of_ne h.1 h.2)
  have hk : kept l.length (sortAsc id idx).reverse = kept l.length idx := by
    unfold kept
    apply List.filter_congr
    intro k _
    rw [decide_eq_decide, hpr.mem_iff]
  have hlt' : ∀ i ∈ (sortAsc id idx).reverse, i < l.length := fun i hi => hlt i (hpr.mem_iff.1 hi)
  refine ⟨_, by unfold popDesc; rw [popAll_ok hs hlt', hk], ?_, ?_⟩
  · rw [length_filterMap_getElem? hlt', hpr.length_eq]
  · rw [← List.filterMap_append]
    conv_rhs => rw [← range_filterMap l]
    apply List.Perm.filterMap
    exact (List.Perm.append_right _ hpr).trans (kept_perm hn hlt)

section
variable {K : Type} [Field K] [LinearOrder K] [IsStrictOrderedRing K]

/-- All members of all populations. -/
def flatMembers (ps : List (Pop K)) : List (List K) := ps.flatMap Pop.members

/-- Bookkeeping of one population is right: `n` and the fitness list match the members. -/
structure Good (p : Pop K) : Prop where
  n : p.n = p.members.length
  nfit : p.fits.length = p.members.length
  hist : p.fitlog ≠ []

/-- Specification: every known (non-NaN) entry of `member_fitnesses` is the fitness of the member at the same place. -/
def Aligned (fit : List K → K) (p : Pop K) : Prop :=
  ∀ (j : ℕ) (x : List K) (v : K), p.members[j]? = some x → p.fits[j]? = some (some v) → v = fit x

theorem remove_ok {rng : Rng K} (hr : rng.OK) {cyc j ei : ℕ} {w : List K} {p : Pop K} (hg : Good p) (he : ei ≤ p.members.length) :
    ∃ q r, p.remove rng cyc j ei w = .ok (q, r) ∧ (r ++ q.members).Perm p.members ∧ r.length = ei ∧ Good q ∧ q.fitlog = p.fitlog ∧
      q.nc = p.nc ∧ ∀ fit, Aligned fit p → Aligned fit q := by
  unfold Pop.remove
  by_cases hn : p.n = 0
  · rw [if_pos hn]
    have h0 : p.members.length = 0 := by rw [← hg.n, hn]
    refine ⟨{ p with n := p.members.length }, [], rfl, ?_, by simp; omega, ⟨rfl, hg.nfit, hg.hist⟩, rfl, rfl, fun fit h => h⟩
    simp
  · rw [if_neg hn, if_neg (by omega)]
    obtain ⟨c1, c2, c3⟩ := hr.choice_ok cyc j p.members.length ei (checked w) he
    dsimp only
    generalize rng.choice cyc j p.members.length ei (checked w) = idx at c1 c2 c3
    obtain ⟨r1, h1, h2, h3⟩ := popDesc_ok (l := p.members) c1 c3
    obtain ⟨r2, k1, k2, k3⟩ := popDesc_ok (l := p.fits) c1 (fun i hi => by rw [hg.nfit]; exact c3 i hi)
    rw [h1]
    dsimp only
    rw [k1]
    have hkm : ∀ i ∈ kept p.members.length idx, i < p.members.length := fun i hi => List.mem_range.1 (List.mem_of_mem_filter hi)
    have hkf : ∀ i ∈ kept p.members.length idx, i < p.fits.length := fun i hi => by rw [hg.nfit]; exact hkm i hi
    refine ⟨_, _, rfl, h3, by omega, ⟨rfl, ?_, hg.hist⟩, rfl, rfl, ?_⟩
    · dsimp only
      rw [hg.nfit, length_filterMap_getElem? hkf, length_filterMap_getElem? hkm]
    · intro fit hA k x v hx hv
      dsimp only at hx hv
      rw [getElem?_filterMap_getElem? hkm] at hx
      rw [hg.nfit, getElem?_filterMap_getElem? hkf] at hv
      cases e : (kept p.members.length idx)[k]? with
      | none => rw [e] at hx; cases hx
      | some i => rw [e] at hx hv; exact hA i x v hx hv

theorem sorted_ok {so : Sorts K} (hs : so.OK) (wb : Bool) {p : Pop K} (hg : Good p) :
    (p.sorted so wb).members.Perm p.members ∧ Good (p.sorted so wb) ∧
    ∀ fit, (∀ v ∈ p.fits, v ≠ none) → Aligned fit p → Aligned fit (p.sorted so wb) := by
  have hz1 : (List.zip p.fits p.members).map Prod.snd = p.members := List.map_snd_zip (by rw [hg.nfit])
  have hz0 : (List.zip p.fits p.members).map Prod.fst = p.fits := List.map_fst_zip (by rw [hg.nfit])
  have hm : (p.sorted so wb).members.Perm p.members := by
    have := (hs.pairs_perm wb (List.zip p.fits p.members)).map Prod.snd
    rwa [hz1] at this
  have hf : (p.sorted so wb).fits.Perm p.fits := hs.keys_perm wb p.fits
  refine ⟨hm, ⟨?_, by rw [hf.length_eq, hm.length_eq, hg.nfit], hg.hist⟩, ?_⟩
  · rw [hm.length_eq]; exact hg.n
  · intro fit hnn hA
    have hnz : ∀ q ∈ List.zip p.fits p.members, q.1 ≠ none := by
      intro q hq
      exact hnn _ (by rw [← hz0]; exact List.mem_map_of_mem hq)
    have hk : (so.pairs wb (List.zip p.fits p.members)).map Prod.fst = so.keys wb p.fits := by
      have hperm : ((so.pairs wb (List.zip p.fits p.members)).map Prod.fst).Perm p.fits := by
        have := (hs.pairs_perm wb (List.zip p.fits p.members)).map Prod.fst
        rwa [hz0] at this
      apply List.Perm.eq_of_pairwise (le := KeyLe wb) _ _ (hs.keys_sorted wb p.fits hnn) (hperm.trans (hs.keys_perm wb p.fits).symm)
      · intro a b ha hb h1 h2
        have ha' := hnn a (hperm.mem_iff.1 ha)
        have hb' := hnn b ((hs.keys_perm wb p.fits).mem_iff.1 hb)
        cases a with
        | none => exact absurd rfl ha'
        | some x =>
          cases b with
          | none => exact absurd rfl hb'
          | some y =>
            have q1 := h1 x y rfl rfl
            have q2 := h2 y x rfl rfl
            cases wb
            · simp at q1 q2; rw [le_antisymm q1 q2]
            · simp at q1 q2; rw [le_antisymm q2 q1]
      · rw [List.pairwise_map]
        exact hs.pairs_sorted wb _ hnz
    intro j x v hx hv
    simp only [Pop.sorted] at hx hv
    rw [← hk] at hv
    rw [List.getElem?_map] at hx hv
    cases e : (so.pairs wb (List.zip p.fits p.members))[j]? with
    | none => rw [e] at hx; cases hx
    | some q =>
      rw [e] at hx hv
      simp only [Option.map_some, Option.some.injEq] at hx hv
      have hq : q ∈ List.zip p.fits p.members := (hs.pairs_perm wb _).mem_iff.1 (List.mem_of_getElem? e)
      obtain ⟨i, hi⟩ := List.mem_iff_getElem?.1 hq
      rw [List.getElem?_zip_eq_some] at hi
      exact hA i x v (by rw [hi.2, hx]) (by rw [hi.1, hv])

/-- An order is needed for every weighting but the uniform one. -/
def OrderGiven (wt : Wt) (order : Order) : Prop := wt = .uni ∨ order ≠ .none

theorem orderNow_ok {order : Order} (h : order ≠ .none) (g : K) : ∃ b, orderNow order g = .ok b := by
  cases order <;> first | exact ⟨_, rfl⟩ | exact absurd rfl h

/-- **C41.** One export: exactly `ei` members leave, nobody is lost or duplicated, the bookkeeping stays right, and the remaining fitness entries
still belong to their members (with sorting, provided no entry is NaN). -/
theorem C41_export {so : Sorts K} (hs : so.OK) {T : Trans K} {rng : Rng K} (hr : rng.OK) {wt : Wt} {order : Order}
    (ho : OrderGiven wt order) {gfrac : K} {cyc j ei : ℕ} {p : Pop K} (hg : Good p) (he : ei ≤ p.members.length) :
    ∃ q r, p.export so T rng wt order gfrac cyc j ei = .ok (q, r) ∧ (r ++ q.members).Perm p.members ∧ r.length = ei ∧ Good q ∧
      q.fitlog = p.fitlog ∧ q.nc = p.nc ∧
      ∀ fit, Aligned fit p → (wt = .uni ∨ ∀ v ∈ p.fits, v ≠ none) → Aligned fit q := by
  unfold Pop.export
  by_cases hw : wt = .uni
  · rw [if_pos hw]
    obtain ⟨q, r, h1, h2, h3, h4, h5, h6, h7⟩ := remove_ok hr (cyc := cyc) (j := j) (w := weights T .uni p.members.length) hg he
    exact ⟨q, r, h1, h2, h3, h4, h5, h6, fun fit hA _ => h7 fit hA⟩
  · rw [if_neg hw]
    obtain ⟨b, hb⟩ := orderNow_ok (ho.resolve_left hw) gfrac
    simp only [hb]
    obtain ⟨s1, s2, s3⟩ := sorted_ok hs b hg
    obtain ⟨q, r, h1, h2, h3, h4, h5, h6, h7⟩ := remove_ok hr (cyc := cyc) (j := j) (ei := ei)
      (w := weights T wt (p.sorted so b).members.length) s2 (by rw [s1.length_eq]; exact he)
    exact ⟨q, r, h1, h2.trans s1, h3, h4, h5, h6, fun fit hA hn => h7 fit (s3 fit (hn.resolve_left hw) hA)⟩

/-- **C41, defect.** The order `None`, accepted by the constructor, raises in the first export unless the weights are uniform. -/
theorem C41_order_none {so : Sorts K} {T : Trans K} {rng : Rng K} {wt : Wt} (hw : wt ≠ .uni) (gfrac : K) (cyc j ei : ℕ) (p : Pop K) :
    p.export so T rng wt .none gfrac cyc j ei = .error .typeError := by
  simp [Pop.export, hw, orderNow]

theorem exportAll_ok {c : Conf K} (hs : c.so.OK) (hr : c.rng.OK) (ho : OrderGiven c.wt c.order) {cyc : ℕ} :
    ∀ {eis : List ℕ} {ps : List (Pop K)} (j : ℕ), eis.length = ps.length → (∀ p ∈ ps, Good p) →
      (∀ (i : ℕ) (e : ℕ) (p : Pop K), eis[i]? = some e → ps[i]? = some p → e ≤ p.members.length) →
      ∃ ps' ex, exportAll c cyc j eis ps = .ok (ps', ex) ∧ (ex ++ flatMembers ps').Perm (flatMembers ps) ∧ ex.length = eis.sum ∧
        ps'.map Pop.fitlog = ps.map Pop.fitlog ∧ ps'.map Pop.nc = ps.map Pop.nc ∧ (∀ p ∈ ps', Good p) ∧
        ∀ (i : ℕ) (e : ℕ) (p q : Pop K), eis[i]? = some e → ps[i]? = some p → ps'[i]? = some q → q.members.length + e = p.members.length := by
  intro eis
  induction eis with
  | nil =>
    intro ps j hl _ _
    cases ps with
    | nil => exact ⟨[], [], rfl, by simp [flatMembers], rfl, rfl, rfl, by simp, by simp⟩
    | cons p ps => simp at hl
  | cons e es ih =>
    intro ps j hl hg hle
    cases ps with
    | nil => simp at hl
    | cons p ps =>
      obtain ⟨q, r, h1, h2, h3, h4, h5, h6, -⟩ := C41_export (T := c.T) hs hr ho (gfrac := (cyc : K) / (c.Ncyc : K)) (cyc := cyc) (j := j)
        (hg p (by simp)) (hle 0 e p rfl rfl)
      obtain ⟨ps', ex, k1, k2, k3, k4, k5, k6, k7⟩ := ih (ps := ps) (j + 1) (by simpa using hl) (fun x hx => hg x (by simp [hx]))
        (fun i a b ha hb => hle (i + 1) a b (by simpa using ha) (by simpa using hb))
      refine ⟨q :: ps', r ++ ex, by simp only [exportAll, h1, k1], ?_, by simp [h3, k3], by simp [h5, k4], by simp [h6, k5], ?_, ?_⟩
      · simp only [flatMembers, List.flatMap_cons] at k2 ⊢
        have e1 : (r ++ ex ++ (q.members ++ ps'.flatMap Pop.members)).Perm ((r ++ q.members) ++ (ex ++ ps'.flatMap Pop.members)) := by
          rw [List.append_assoc, List.append_assoc]
          apply List.Perm.append_left
          rw [← List.append_assoc, ← List.append_assoc]
          exact List.Perm.append_right _ List.perm_append_comm
        exact e1.trans (h2.append k2)
      · intro x hx
        rcases List.mem_cons.1 hx with rfl | hx
        · exact h4
        · exact k6 x hx
      · intro i a b d ha hb hd
        cases i with
        | zero =>
          simp at ha hb hd
          subst ha hb hd
          have := h2.length_eq
          rw [List.length_append] at this
          omega
        | succ i => exact k7 i a b d (by simpa using ha) (by simpa using hb) (by simpa using hd)

theorem receive_good {p : Pop K} (hg : Good p) (l : List (List K)) : Good (p.receive l) :=
  ⟨rfl, by simp [Pop.receive, hg.nfit], hg.hist⟩

theorem receive_aligned {fit : List K → K} {p : Pop K} (hg : Good p) (hA : Aligned fit p) (l : List (List K)) : Aligned fit (p.receive l) := by
  intro j x v hx hv
  simp only [Pop.receive] at hx hv
  by_cases hj : j < p.members.length
  · rw [List.getElem?_append_left hj] at hx
    rw [List.getElem?_append_left (by rw [hg.nfit]; exact hj)] at hv
    exact hA j x v hx hv
  · rw [List.getElem?_append_right (by rw [hg.nfit]; omega), List.getElem?_map] at hv
    cases e : l[j - p.fits.length]? with
    | none => rw [e] at hv; cases hv
    | some z => rw [e] at hv; cases hv

theorem distribute_ok : ∀ {as : List ℕ} {ps : List (Pop K)} {ex : List (List K)}, as.length = ps.length → as.sum = ex.length →
    (∀ p ∈ ps, Good p) →
    (flatMembers (distribute as ps ex)).Perm (ex ++ flatMembers ps) ∧ (distribute as ps ex).map Pop.fitlog = ps.map Pop.fitlog ∧
    (∀ p ∈ distribute as ps ex, Good p) ∧
    ∀ (i a : ℕ) (p q : Pop K), as[i]? = some a → ps[i]? = some p → (distribute as ps ex)[i]? = some q → q.members.length = p.members.length + a := by
  intro as
  induction as with
  | nil =>
    intro ps ex hl hs hg
    cases ps with
    | nil => simp at hs; simp [distribute, flatMembers, List.eq_nil_of_length_eq_zero hs.symm]
    | cons p ps => simp at hl
  | cons a as ih =>
    intro ps ex hl hs hg
    cases ps with
    | nil => simp at hl
    | cons p ps =>
      simp only [List.sum_cons] at hs
      obtain ⟨h1, h2, h3, h4⟩ := ih (ps := ps) (ex := ex.drop a) (by simpa using hl) (by rw [List.length_drop]; omega)
        (fun x hx => hg x (by simp [hx]))
      refine ⟨?_, ?_, ?_, ?_⟩
      · simp only [distribute, flatMembers, List.flatMap_cons, Pop.receive] at h1 ⊢
        have e : ex = ex.take a ++ ex.drop a := (List.take_append_drop a ex).symm
        have e1 : (p.members ++ ex.take a ++ (ex.drop a ++ ps.flatMap Pop.members)).Perm (ex ++ (p.members ++ ps.flatMap Pop.members)) := by
          conv_rhs => rw [e]
          simp only [List.append_assoc]
          rw [← List.append_assoc p.members, ← List.append_assoc (ex.take a)]
          rw [← List.append_assoc, ← List.append_assoc]
          apply List.Perm.append_right
          have : (p.members ++ (ex.take a ++ ex.drop a)).Perm (ex.take a ++ ex.drop a ++ p.members) := List.perm_append_comm
          simpa [List.append_assoc] using this
        exact (List.Perm.append_left _ h1).trans e1
      · simp only [distribute, List.map_cons, h2]; rfl
      · intro x hx
        rcases List.mem_cons.1 hx with rfl | hx
        · exact receive_good (hg p (by simp)) _
        · exact h3 x hx
      · intro i b u v hb hu hv
        cases i with
        | zero =>
          simp [distribute] at hb hu hv
          subst hb hu hv
          simp [Pop.receive]; omega
        | succ i => exact h4 i b u v (by simpa using hb) (by simpa using hu) (by simpa [distribute] using hv)

theorem scaled_ok {s d : List K} (h : scaled s = .ok d) : d.length = s.length ∧ s.sum ≠ 0 ∧ d = s.map (fun x => x / s.sum) := by
  unfold scaled at h
  split_ifs at h with h0
  cases h
  exact ⟨by simp, h0, rfl⟩

theorem exportNumbers_ok {c : Conf K} (hr : c.rng.OK) {cyc : ℕ} {e : Ext K} {ps : List (Pop K)} {w : List K} {eis : List ℕ}
    (h : exportNumbers c cyc e ps = .ok (w, eis)) :
    w.length = ps.length ∧ eis.length = ps.length ∧ (∀ x ∈ w, 0 ≤ x ∧ x ≤ 1) ∧
    ∀ (i : ℕ) (a : ℕ) (p : Pop K), eis[i]? = some a → ps[i]? = some p → a ≤ p.members.length := by
  unfold exportNumbers at h
  split at h
  · cases h
  split_ifs at h with hfl
  · cases h
    refine ⟨by simp, by simp, ?_, ?_⟩
    · intro x hx
      simp only [List.map_const', List.mem_replicate] at hx
      rw [hx.2]; norm_num
    · intro i a p ha hp
      rw [List.getElem?_map, hp] at ha
      cases ha
      exact Nat.zero_le _
  · split at h
    · cases h
    · rename_i s hsc
      split at h
      · cases h
      · rename_i q hq
        dsimp only at h
        split_ifs at h with hall
        cases h
        have hl : (List.map (fun x => (1 / 2 - x) * q + 1 / 2) s).length = ps.length := by
          rw [List.length_map, (scaled_ok hsc).1]; simp [strengths]
        refine ⟨hl, by rw [List.length_mapIdx, List.length_zip, hl]; omega, ?_, ?_⟩
        · intro x hx
          have := List.all_eq_true.1 hall x hx
          simpa using this
        · intro i a p ha hp
          rw [List.getElem?_mapIdx] at ha
          cases e2 : (ps.zip (List.map (fun x => (1 / 2 - x) * q + 1 / 2) s))[i]? with
          | none => rw [e2] at ha; cases ha
          | some pw =>
            rw [e2] at ha
            cases ha
            rw [List.getElem?_zip_eq_some] at e2
            rw [hp] at e2
            cases e2.1
            exact hr.binomial_le _ _ _ _

/-- **C41.** A migration neither loses nor duplicates anybody: whatever the draws, sort and weights, the multiset of members over all populations is
unchanged; so are the populations' fitness histories; `n` and the fitness lists match the members afterwards; the export weights are
probabilities and the destination probabilities one per population. -/
theorem C41_migrate {c : Conf K} (hs : c.so.OK) (hr : c.rng.OK) {cyc : ℕ} {ps ps' : List (Pop K)} {w d : List K}
    (hg : ∀ p ∈ ps, Good p) (h : migrate c cyc ps = .ok (w, d, ps')) :
    (flatMembers ps').Perm (flatMembers ps) ∧ ps'.length = ps.length ∧ ps'.map Pop.fitlog = ps.map Pop.fitlog ∧
    (∀ p ∈ ps', Good p) ∧ w.length = ps.length ∧ (∀ x ∈ w, 0 ≤ x ∧ x ≤ 1) ∧ d.length = ps.length ∧ d.sum = 1 := by
  unfold migrate at h
  split at h
  · cases h
  rename_i e he
  have hne : ps ≠ [] := by
    intro h0
    subst h0
    simp [extremes] at he
  split at h
  · cases h
  rename_i w' eis hen
  obtain ⟨n1, n2, n3, n4⟩ := exportNumbers_ok hr hen
  by_cases ho : OrderGiven c.wt c.order
  swap
  · exfalso
    unfold OrderGiven at ho
    push Not at ho
    obtain ⟨ho1, ho2⟩ := ho
    cases ps with
    | nil => exact hne rfl
    | cons p ps =>
      cases eis with
      | nil => simp at n2
      | cons ei eis =>
        simp only [exportAll] at h
        rw [ho2, C41_order_none ho1] at h
        cases h
  obtain ⟨ps1, ex, x1, x2, x3, x4, x5, x6, x7⟩ := exportAll_ok (cyc := cyc) hs hr ho 0 n2 hg n4
  rw [x1] at h
  dsimp only at h
  split at h
  · cases h
  rename_i d' hd
  have hl1 : ps1.length = ps.length := by
    have := congrArg List.length x4
    simpa using this
  have hdl : d'.length = ps.length ∧ d'.sum = 1 := by
    unfold destProbs at hd
    split at hd
    · cases hd
    · obtain ⟨q1, q2, q3⟩ := scaled_ok hd
      refine ⟨?_, ?_⟩
      · rw [q1]; split_ifs <;> simp [strengths, hl1]
      · rw [q3]; simp only [div_eq_mul_inv]; rw [List.sum_map_mul_right, List.map_id', mul_inv_cancel₀ q2]
  have hd0 : d' ≠ [] := by
    intro h0
    rw [h0] at hdl
    have := hdl.1
    simp at this
    exact hne (List.eq_nil_of_length_eq_zero this.symm)
  obtain ⟨m1, m2⟩ := hr.multinomial_ok cyc (c.rng.shuffle cyc ex).length d' hd0
  obtain ⟨y1, y2, y3, y4⟩ := distribute_ok (as := c.rng.multinomial cyc (c.rng.shuffle cyc ex).length d') (ps := ps1)
    (ex := c.rng.shuffle cyc ex) (by rw [m1, hdl.1, hl1]) m2 x6
  cases h
  refine ⟨?_, ?_, y2.trans x4, y3, n1, n3, hdl.1, hdl.2⟩
  · exact y1.trans ((List.Perm.append_right _ (hr.shuffle_perm cyc ex)).trans x2)
  · have := congrArg List.length y2
    simp only [List.length_map] at this
    omega

/-! ### Export weights never leave `[0, 1]` -/

/-- What is needed of `s ** alpha` on non-negative strengths and exponents. -/
structure PowOK (pow : K → K → K) : Prop where
  nonneg : ∀ s a, 0 ≤ s → 0 ≤ a → 0 ≤ pow s a
  pos : ∀ s a, 0 < s → 0 ≤ a → 0 < pow s a

/-- The constructor's check on `alpha` and `beta` (lines 559-561, 590-592). -/
def Sched.NonNeg : Sched K → Prop
  | .num x => 0 ≤ x
  | _ => True

/-- The range of `q` for which the export weights are probabilities; the constructor does not check it. -/
def Sched.Unit : Sched K → Prop
  | .num x => -1 ≤ x ∧ x ≤ 1
  | _ => True

theorem alphabeta_nonneg {s : Sched K} {n N : ℕ} (hs : s.NonNeg) (h1 : 1 ≤ n) (h2 : n ≤ N) (hN : 2 ≤ N) :
    ∃ a, alphabeta s n N = .ok a ∧ 0 ≤ a := by
  obtain ⟨⟨a, b, c, d, h3, h4, -, -, h7, h8, h9, -⟩, -⟩ := C40_schedules (K := K) h1 h2 hN
  cases s with
  | num x => exact ⟨x, rfl, hs⟩
  | up => exact ⟨a, h3, h7⟩
  | down => exact ⟨b, h4, by linarith⟩

theorem getQ_unit {s : Sched K} {n N : ℕ} (hs : s.Unit) (h1 : 1 ≤ n) (h2 : n ≤ N) (hN : 2 ≤ N) :
    ∃ q, getQ s n N = .ok q ∧ -1 ≤ q ∧ q ≤ 1 := by
  obtain ⟨⟨a, b, c, d, -, -, h3, h4, h7, h8, h9, h10, h11⟩, -⟩ := C40_schedules (K := K) h1 h2 hN
  cases s with
  | num x => exact ⟨x, rfl, hs⟩
  | up => exact ⟨c, h3, by linarith, by linarith⟩
  | down => exact ⟨d, h4, by linarith, by linarith⟩

theorem extremes_spec {ps : List (Pop K)} {e : Ext K} (h : extremes ps = .ok e) :
    ((∃ p ∈ ps, p.fitness = e.minf) ∧ ∀ p ∈ ps, e.minf ≤ p.fitness ∧ p.fitness ≤ e.maxf) ∧
    ((∃ p ∈ ps, p.dfitness = e.mindf) ∧ ∀ p ∈ ps, e.mindf ≤ p.dfitness ∧ p.dfitness ≤ e.maxdf) := by
  unfold extremes at h
  split at h
  · rename_i a b d f h1 h2 h3 h4
    cases h
    rw [List.max?_eq_some_iff] at h1 h3
    rw [List.min?_eq_some_iff] at h2 h4
    refine ⟨⟨?_, fun p hp => ⟨h2.2 _ (List.mem_map_of_mem hp), h1.2 _ (List.mem_map_of_mem hp)⟩⟩,
      ⟨?_, fun p hp => ⟨h4.2 _ (List.mem_map_of_mem hp), h3.2 _ (List.mem_map_of_mem hp)⟩⟩⟩
    · obtain ⟨p, hp, e⟩ := List.mem_map.1 h2.1; exact ⟨p, hp, e⟩
    · obtain ⟨p, hp, e⟩ := List.mem_map.1 h4.1; exact ⟨p, hp, e⟩
  · cases h

theorem extremes_total {ps : List (Pop K)} (h : ps ≠ []) : ∃ e, extremes ps = .ok e := by
  have hm : ∀ f : Pop K → K, (∃ a, (ps.map f).max? = some a) ∧ ∃ a, (ps.map f).min? = some a := by
    intro f
    have : ps.map f ≠ [] := by simpa using h
    constructor
    · cases e : (ps.map f).max? with
      | none => exact absurd (List.max?_eq_none_iff.1 e) this
      | some a => exact ⟨a, rfl⟩
    · cases e : (ps.map f).min? with
      | none => exact absurd (List.min?_eq_none_iff.1 e) this
      | some a => exact ⟨a, rfl⟩
  obtain ⟨⟨a, ha⟩, b, hb⟩ := hm Pop.fitness
  obtain ⟨⟨d, hd⟩, f, hf⟩ := hm Pop.dfitness
  exact ⟨⟨a, b, d, f⟩, by simp only [extremes, ha, hb, hd, hf]⟩

/-- **C40.** Strengths lie in `[0, 1]`: 1 for the best population (before the burden), 0 for the worst. -/
theorem C40_strength {improve burden : Bool} {lo hi : K} (hlt : lo < hi) {p : Pop K}
    (h1 : lo ≤ (if improve then p.dfitness else p.fitness)) (h2 : (if improve then p.dfitness else p.fitness) ≤ hi) :
    0 ≤ p.strength improve burden hi lo ∧ p.strength improve burden hi lo ≤ 1 ∧
    ((if improve then p.dfitness else p.fitness) < hi → 0 < p.strength improve burden hi lo) ∧
    ((if improve then p.dfitness else p.fitness) = lo → burden = false → p.strength improve burden hi lo = 1) ∧
    ((if improve then p.dfitness else p.fitness) = hi → p.strength improve burden hi lo = 0) := by
  unfold Pop.strength
  generalize (if improve then p.dfitness else p.fitness) = f at *
  have hd : lo - hi < 0 := by linarith
  have e : (f - hi) / (lo - hi) = (hi - f) / (hi - lo) := by
    rw [← neg_sub hi f, ← neg_sub hi lo, neg_div_neg_eq]
  have hp : 0 < hi - lo := by linarith
  have hn0 : (0 : K) ≤ (p.nc : K) := Nat.cast_nonneg _
  have q1 : 0 ≤ (hi - f) / (hi - lo) := div_nonneg (by linarith) hp.le
  have q2 : (hi - f) / (hi - lo) ≤ 1 := by rw [div_le_one hp]; linarith
  dsimp only
  rw [e]
  cases burden
  · simp only [Bool.false_eq_true, if_false]
    refine ⟨q1, q2, fun h => div_pos (by linarith) hp, fun h _ => ?_, fun h => by rw [h, sub_self, zero_div]⟩
    rw [h, div_self hp.ne']
  · simp only [if_true]
    refine ⟨div_nonneg q1 (by linarith), ?_, fun h => div_pos (div_pos (by linarith) hp) (by linarith), fun _ h => (by cases h), fun h => ?_⟩
    · rw [div_le_one (by linarith)]; linarith
    · rw [h, sub_self, zero_div, zero_div]

theorem scaled_total {s : List K} (h0 : ∀ x ∈ s, 0 ≤ x) (h1 : ∃ x ∈ s, 0 < x) :
    ∃ d, scaled s = .ok d ∧ d.sum = 1 ∧ ∀ x ∈ d, 0 ≤ x ∧ x ≤ 1 := by
  have hpos : 0 < s.sum := by
    obtain ⟨x, hx, hp⟩ := h1
    exact lt_of_lt_of_le hp (List.single_le_sum h0 x hx)
  refine ⟨s.map (fun x => x / s.sum), by simp only [scaled, hpos.ne', if_false], ?_, ?_⟩
  · simp only [div_eq_mul_inv]; rw [List.sum_map_mul_right, List.map_id', mul_inv_cancel₀ hpos.ne']
  · intro y hy
    obtain ⟨x, hx, rfl⟩ := List.mem_map.1 hy
    exact ⟨div_nonneg (h0 x hx) hpos.le, by rw [div_le_one hpos]; exact List.single_le_sum h0 x hx⟩

theorem strengths_scaled {c : Conf K} (hp : PowOK c.pow) {improve burden : Bool} {a : K} (ha : 0 ≤ a) {ps : List (Pop K)} {e : Ext K}
    (he : extremes ps = .ok e) (hf : ¬ flat improve e) :
    ∃ d, scaled (strengths c improve burden a e ps) = .ok d ∧ d.sum = 1 ∧ ∀ x ∈ d, 0 ≤ x ∧ x ≤ 1 := by
  obtain ⟨⟨⟨p1, m1, v1⟩, s1⟩, ⟨p2, m2, v2⟩, s2⟩ := extremes_spec he
  apply scaled_total
  · intro x hx
    obtain ⟨p, hp', rfl⟩ := List.mem_map.1 hx
    apply hp.nonneg _ _ _ ha
    cases improve
    · have hlt : e.minf < e.maxf := lt_of_le_of_ne ((s1 p hp').1.trans (s1 p hp').2) (fun h => hf (by simp [flat, h]))
      exact (C40_strength hlt (by simpa using (s1 p hp').1) (by simpa using (s1 p hp').2)).1
    · have hlt : e.mindf < e.maxdf := lt_of_le_of_ne ((s2 p hp').1.trans (s2 p hp').2) (fun h => hf (by simp [flat, h]))
      exact (C40_strength hlt (by simpa using (s2 p hp').1) (by simpa using (s2 p hp').2)).1
  · cases improve
    · have hlt : e.minf < e.maxf := lt_of_le_of_ne ((s1 p1 m1).1.trans (s1 p1 m1).2) (fun h => hf (by simp [flat, h]))
      refine ⟨_, List.mem_map.2 ⟨p1, m1, rfl⟩, hp.pos _ _ ?_ ha⟩
      exact (C40_strength hlt (by simpa using (s1 p1 m1).1) (by simpa using (s1 p1 m1).2)).2.2.1 (by simpa [v1] using hlt)
    · have hlt : e.mindf < e.maxdf := lt_of_le_of_ne ((s2 p2 m2).1.trans (s2 p2 m2).2) (fun h => hf (by simp [flat, h]))
      refine ⟨_, List.mem_map.2 ⟨p2, m2, rfl⟩, hp.pos _ _ ?_ ha⟩
      exact (C40_strength hlt (by simpa using (s2 p2 m2).1) (by simpa using (s2 p2 m2).2)).2.2.1 (by simpa [v2] using hlt)

/-- **C40.** With at least two cycles and `q` in `[-1, 1]` the export weights are always legal binomial parameters and no division by zero happens. -/
theorem C40_export_numbers {c : Conf K} (hp : PowOK c.pow) (ha : c.alpha.NonNeg) (hq : c.q.Unit) {cyc : ℕ} (h1 : 1 ≤ cyc)
    (h2 : cyc ≤ c.Ncyc) (hN : 2 ≤ c.Ncyc) {ps : List (Pop K)} {e : Ext K} (he : extremes ps = .ok e) :
    ∃ w eis, exportNumbers c cyc e ps = .ok (w, eis) := by
  obtain ⟨a, ea, a0⟩ := alphabeta_nonneg ha h1 h2 hN
  obtain ⟨q, eq, q1, q2⟩ := getQ_unit hq h1 h2 hN
  unfold exportNumbers
  simp only [ea]
  by_cases hf : flat c.gImprove e
  · simp only [hf, if_true]; exact ⟨_, _, rfl⟩
  · simp only [hf, if_false]
    obtain ⟨d, ed, -, hd⟩ := strengths_scaled hp (burden := c.gBurden) a0 he hf
    simp only [ed, eq]
    rw [if_pos]
    · exact ⟨_, _, rfl⟩
    · rw [List.all_eq_true]
      intro x hx
      obtain ⟨s, hs, rfl⟩ := List.mem_map.1 hx
      obtain ⟨s0, s1⟩ := hd s hs
      simp only [decide_eq_true_eq]
      constructor <;> nlinarith

theorem destProbs_total {c : Conf K} (hp : PowOK c.pow) (hb : c.beta.NonNeg) {cyc : ℕ} (h1 : 1 ≤ cyc) (h2 : cyc ≤ c.Ncyc) (hN : 2 ≤ c.Ncyc)
    {ps ps' : List (Pop K)} (hne : ps ≠ []) {e : Ext K} (he : extremes ps = .ok e) (hfl : ps'.map Pop.fitlog = ps.map Pop.fitlog) :
    ∃ d, destProbs c cyc e ps' = .ok d ∧ d.sum = 1 ∧ ∀ x ∈ d, 0 ≤ x ∧ x ≤ 1 := by
  obtain ⟨b, eb, b0⟩ := alphabeta_nonneg hb h1 h2 hN
  have he' : extremes ps' = .ok e := by
    have hfit : ps'.map Pop.fitness = ps.map Pop.fitness := by
      have := congrArg (List.map (fun l : List K => l.getLast?.getD 0)) hfl
      rw [List.map_map, List.map_map] at this; exact this
    have hdf : ps'.map Pop.dfitness = ps.map Pop.dfitness := by
      have := congrArg (List.map (fun l : List K => if l.length = 1 then l.getLast?.getD 0 else l.getLast?.getD 0 - (l.dropLast.getLast?).getD 0)) hfl
      rw [List.map_map, List.map_map] at this; exact this
    unfold extremes at he ⊢
    rw [hfit, hdf]; exact he
  have hne' : ps' ≠ [] := by
    intro h0
    subst h0
    simp at hfl
    exact hne hfl
  unfold destProbs
  simp only [eb]
  by_cases hf : flat c.bImprove e
  · simp only [hf, if_true]
    obtain ⟨p, hp'⟩ := List.exists_mem_of_ne_nil _ hne'
    exact scaled_total (by simp) ⟨1, List.mem_map.2 ⟨p, hp', rfl⟩, by norm_num⟩
  · simp only [hf, if_false]
    exact strengths_scaled hp b0 he' hf

/-- **C41.** With at least two cycles, at least one population, legal options and right bookkeeping a migration always succeeds. -/
theorem C41_migrate_total {c : Conf K} (hs : c.so.OK) (hr : c.rng.OK) (ho : OrderGiven c.wt c.order) (hp : PowOK c.pow) (ha : c.alpha.NonNeg)
    (hb : c.beta.NonNeg) (hq : c.q.Unit) {cyc : ℕ} (h1 : 1 ≤ cyc) (h2 : cyc ≤ c.Ncyc) (hN : 2 ≤ c.Ncyc) {ps : List (Pop K)} (hne : ps ≠ [])
    (hg : ∀ p ∈ ps, Good p) : ∃ r, migrate c cyc ps = .ok r := by
  obtain ⟨e, he⟩ := extremes_total hne
  obtain ⟨w, eis, hen⟩ := C40_export_numbers hp ha hq h1 h2 hN he
  obtain ⟨n1, n2, n3, n4⟩ := exportNumbers_ok hr hen
  obtain ⟨ps1, ex, x1, x2, x3, x4, x5, x6, x7⟩ := exportAll_ok (cyc := cyc) hs hr ho 0 n2 hg n4
  obtain ⟨d, hd, -⟩ := destProbs_total hp hb h1 h2 hN hne he x4
  unfold migrate
  simp only [he, hen, x1, hd]
  exact ⟨_, rfl⟩

/-! ### The evolution phase and the whole run -/

/-- What the ensemble relies on in an evolver, for fitness `fit` and members satisfying `P` (feasible points): the last population has as many
members as it was given, each was evaluated and carries its own fitness, and only points satisfying `P` are evaluated. -/
def EvolverOK (fit : List K → K) (P : List K → Prop) (ev : Evolver K) : Prop :=
  ∀ kw ms last log, (∀ x ∈ ms, P x) → ev kw ms = .ok (last, log) →
    last.length = ms.length ∧ (∀ q ∈ last, q.1 ∈ log ∧ q.2 = fit q.1) ∧ ∀ x ∈ log, P x

/-- A population before its first evolution, or with right bookkeeping. -/
def Ready (p : Pop K) : Prop := p.n = p.members.length ∧ (p.fitlog = [] ∨ Good p)

theorem evolute_pop_ok {fit : List K → K} {P : List K → Prop} {o : Opt K} {ev : Evolver K} (he : EvolverOK fit P ev) {g cyc N rows : ℕ}
    {p p' : Pop K} {l : List (List K)} (hp : Ready p) (hP : ∀ x ∈ p.members, P x) (h : p.evolute o ev g cyc N rows = .ok (p', l)) :
    Good p' ∧ p'.members.length = p.members.length ∧ (∀ x ∈ p'.members, P x) ∧ (∀ x ∈ l, P x) ∧
    (p' = { p with nc := 0 } ∧ l = [] ∨ (∀ x ∈ p'.members, x ∈ l) ∧ Aligned fit p' ∧ (∀ v ∈ p'.fits, v ≠ none) ∧
      p'.fitlog.length = p.fitlog.length + 1 ∧ MinOn fit p'.members p'.fitness ∧ p'.nc = conv o.algo g p.members.length) := by
  unfold Pop.evolute at h
  split_ifs at h with h1 h2 h3
  · cases h
    have hg : Good p := hp.2.resolve_left h2
    exact ⟨⟨hg.n, hg.nfit, hg.hist⟩, rfl, hP, by simp, Or.inl ⟨rfl, rfl⟩⟩
  · split at h
    · cases h
    rename_i kw hkw
    split at h
    · cases h
    rename_i last log hev
    obtain ⟨e1, e2, e3⟩ := he kw p.members last log hP hev
    split at h
    · cases h
    rename_i y hy
    split_ifs at h with h4
    cases h
    rw [List.min?_eq_some_iff] at hy
    have hmem : ∀ x ∈ last.map Prod.fst, x ∈ l := by
      intro x hx
      obtain ⟨q, hq, rfl⟩ := List.mem_map.1 hx
      exact (e2 q hq).1
    refine ⟨⟨?_, by simp, by simp⟩, by simp [e1], fun x hx => e3 x (hmem x hx), e3, Or.inr ⟨hmem, ?_, ?_, by simp, ?_, by rw [hp.1]⟩⟩
    · simp only [List.length_map, e1]; exact hp.1
    · intro j x v hx hv
      simp only [List.getElem?_map] at hx hv
      cases e : last[j]? with
      | none => rw [e] at hx; cases hx
      | some q =>
        rw [e] at hx hv
        cases hx; cases hv
        exact (e2 q (List.mem_of_getElem? e)).2
    · intro v hv
      obtain ⟨q, _, rfl⟩ := List.mem_map.1 hv
      simp
    · have hf : Pop.fitness ({ members := last.map Prod.fst, fits := last.map (fun q => some q.2), n := p.n, fitlog := p.fitlog ++ [y], nc := conv o.algo g p.n } : Pop K) = y := by simp [Pop.fitness]
      rw [hf]
      constructor
      · obtain ⟨q, hq, rfl⟩ := List.mem_map.1 hy.1
        exact ⟨q.1, List.mem_map_of_mem hq, (e2 q hq).2.symm⟩
      · intro z hz
        obtain ⟨q, hq, rfl⟩ := List.mem_map.1 hz
        rw [← (e2 q hq).2]
        exact hy.2 _ (List.mem_map_of_mem hq)

theorem evolveAll_ok {c : Conf K} {fit : List K → K} {P : List K → Prop} (he : ∀ j cyc, EvolverOK fit P (c.evolver j cyc)) {rows cyc : ℕ} :
    ∀ {os : List (Opt K)} {ps ps' : List (Pop K)} {l : List (List K)} (j : ℕ), os.length = ps.length → (∀ p ∈ ps, Ready p) →
      (∀ x ∈ flatMembers ps, P x) → evolveAll c rows cyc j os ps = .ok (ps', l) →
      ps'.length = ps.length ∧ (∀ p ∈ ps', Good p) ∧ (∀ x ∈ flatMembers ps', P x) ∧ (∀ x ∈ l, P x) ∧
      (flatMembers ps').length = (flatMembers ps).length := by
  intro os
  induction os with
  | nil =>
    intro ps ps' l j hl hr hP h
    cases ps with
    | nil => cases h; simp [flatMembers]
    | cons p ps => simp at hl
  | cons o os ih =>
    intro ps ps' l j hl hr hP h
    cases ps with
    | nil => simp at hl
    | cons p ps =>
      simp only [evolveAll] at h
      split at h
      · cases h
      rename_i p1 l1 h1
      split at h
      · cases h
      rename_i ps1 l2 h2
      cases h
      simp only [flatMembers, List.flatMap_cons, List.mem_append] at hP
      obtain ⟨a1, a2, a3, a4, -⟩ := evolute_pop_ok (he j cyc) (hr p (by simp)) (fun x hx => hP x (Or.inl hx)) h1
      obtain ⟨b1, b2, b3, b4, b5⟩ := ih (ps := ps) (j + 1) (by simpa using hl) (fun q hq => hr q (by simp [hq])) (fun x hx => hP x (Or.inr hx)) h2
      refine ⟨by simp [b1], ?_, ?_, ?_, ?_⟩
      · intro q hq
        rcases List.mem_cons.1 hq with rfl | hq
        · exact a1
        · exact b2 q hq
      · intro x hx
        simp only [flatMembers, List.flatMap_cons, List.mem_append] at hx
        rcases hx with hx | hx
        · exact a3 x hx
        · exact b3 x hx
      · intro x hx
        rcases List.mem_append.1 hx with hx | hx
        · exact a4 x hx
        · exact b4 x hx
      · simp only [flatMembers, List.flatMap_cons, List.length_append] at b5 ⊢
        omega

/-- The state after some cycles: as many populations as optimisers, members and evaluated points satisfy `P`, the head count is `N`, bookkeeping right
after the first cycle. -/
structure RunInv (c : Conf K) (P : List K → Prop) (N : ℕ) (k : ℕ) (s : State K) : Prop where
  npops : s.pops.length = c.opts.length
  ready : ∀ p ∈ s.pops, Ready p
  good : s.ncyc ≠ 0 → ∀ p ∈ s.pops, Good p
  mem : ∀ x ∈ flatMembers s.pops, P x
  log : ∀ x ∈ s.log, P x
  count : (flatMembers s.pops).length = N
  cyc : s.ncyc ≤ k
  full : s.stopped = false → s.ncyc = k

theorem run_inv {c : Conf K} (hs : c.so.OK) (hr : c.rng.OK) {fit : List K → K} {P : List K → Prop}
    (he : ∀ j cyc, EvolverOK fit P (c.evolver j cyc)) {rows : ℕ} {stop : ℕ → Bool} {ps : List (Pop K)} (hl : ps.length = c.opts.length)
    (h0 : ∀ p ∈ ps, Ready p) (hP : ∀ x ∈ flatMembers ps, P x) : ∀ {k : ℕ} {s : State K}, run c rows stop ps k = .ok s →
      RunInv c P (flatMembers ps).length k s
  | 0, s, h => by
    cases h
    exact ⟨hl, h0, by simp, hP, by simp, rfl, le_rfl, fun _ => rfl⟩
  | k + 1, s, h => by
    simp only [run] at h
    split at h
    · cases h
    rename_i s0 hs0
    have hi := run_inv hs hr he hl h0 hP hs0
    unfold cycle at h
    split_ifs at h with hst
    · cases h
      exact ⟨hi.npops, hi.ready, hi.good, hi.mem, hi.log, hi.count, hi.cyc.trans (Nat.le_succ k), fun h => by rw [hst] at h; cases h⟩
    · split at h
      · cases h
      rename_i ps1 l h1
      obtain ⟨a1, a2, a3, a4, a5⟩ := evolveAll_ok he 0 hi.npops.symm hi.ready hi.mem h1
      split at h
      · cases h
      rename_i w d ps2 h2
      obtain ⟨b1, b2, b3, b4, -⟩ := C41_migrate hs hr a2 h2
      cases h
      refine ⟨by simp only [b2, a1, hi.npops], fun p hp => ⟨(b4 p hp).n, Or.inr (b4 p hp)⟩, fun _ => b4, fun x hx => a3 x (b1.mem_iff.1 hx), ?_, ?_, ?_, ?_⟩
      · intro x hx
        rcases List.mem_append.1 hx with hx | hx
        · exact hi.log x hx
        · exact a4 x hx
      · rw [b1.length_eq, a5, hi.count]
      · exact Nat.succ_le_succ hi.cyc
      · intro _
        rw [hi.full (by simpa using hst)]

theorem split_members {n : ℕ} {x0 : List (List K × ℕ)} (h : ∀ p ∈ x0, p.2 < n) : (flatMembers (split n x0)).Perm (x0.map Prod.fst) := by
  have key : ∀ n : ℕ, (flatMembers (split n x0)).Perm ((x0.filter (fun p => p.2 < n)).map Prod.fst) := by
    intro n
    induction n with
    | zero => simp [split, flatMembers]
    | succ n ih =>
      have e : flatMembers (split (n + 1) x0) = flatMembers (split n x0) ++ (x0.filter (fun p => p.2 = n)).map Prod.fst := by
        simp [split, flatMembers, List.range_succ, Pop.init]
      rw [e]
      refine (List.Perm.append_right _ ih).trans ?_
      rw [← List.map_append]
      apply List.Perm.map
      clear ih e h
      induction x0 with
      | nil => simp
      | cons p l ih =>
        by_cases h1 : p.2 < n
        · have h2 : p.2 < n + 1 := by omega
          have h3 : ¬ p.2 = n := by omega
          simp only [List.filter_cons, h1, h2, h3, decide_true, decide_false, if_true, Bool.false_eq_true, if_false, List.cons_append]
          exact ih.cons _
        · by_cases h3 : p.2 = n
          · have h2 : p.2 < n + 1 := by omega
            simp only [List.filter_cons, h1, h2, h3, decide_true, decide_false, if_true, Bool.false_eq_true, if_false]
            have hn : n < n + 1 := by omega
            simp only [lt_irrefl, decide_false, Bool.false_eq_true, if_false, hn, decide_true, if_true]
            exact List.perm_middle.trans (ih.cons _)
          · have h2 : ¬ p.2 < n + 1 := by omega
            simp only [List.filter_cons, h1, h2, h3, decide_false, Bool.false_eq_true, if_false]
            exact ih
  have := key n
  rwa [List.filter_eq_self.2 (fun p hp => by simpa using h p hp)] at this

/-- **C41.** The whole run, for any algorithms that honour `EvolverOK`, any options, draws, number of cycles and stop criterion: the returned pair is the
best of everything ever evaluated, with its fitness, and a legal point; every member of every population is a legal point; no individual
is ever lost or duplicated (the head count equals the number of starting positions); `n` and the fitness list of every population match its members. -/
theorem C41_evolute {c : Conf K} (hs : c.so.OK) (hr : c.rng.OK) {fit : List K → K} {P : List K → Prop}
    (he : ∀ j cyc, EvolverOK fit P (c.evolver j cyc)) {stop : ℕ → Bool} {x0 : List (List K × ℕ)} (hx : ∀ p ∈ x0, P p.1 ∧ p.2 < c.opts.length)
    {r : Result K} (h : evolute c fit stop x0 = .ok r) :
    IsBest true fit r.final.log r.x r.y ∧ P r.x ∧ (∀ x ∈ r.final.log, P x) ∧ (∀ x ∈ flatMembers r.final.pops, P x) ∧
    (flatMembers r.final.pops).length = x0.length ∧ r.final.pops.length = c.opts.length ∧ (∀ p ∈ r.final.pops, Good p) ∧
    1 ≤ r.final.ncyc ∧ r.final.ncyc ≤ c.Ncyc := by
  unfold evolute at h
  split at h
  · cases h
  rename_i s hrun
  have hsp := split_members (n := c.opts.length) (x0 := x0) (fun p hp => (hx p hp).2)
  have hi := run_inv hs hr he (by simp [split]) (ps := split c.opts.length x0) (fun p hp => by
      obtain ⟨i, _, rfl⟩ := List.mem_map.1 hp
      exact ⟨rfl, Or.inl rfl⟩)
    (fun x hx' => by
      obtain ⟨p, hp, rfl⟩ := List.mem_map.1 (hsp.mem_iff.1 hx')
      exact (hx p hp).1) hrun
  split at h
  · cases h
  rename_i x hmin
  cases h
  rw [List.argmin_eq_some_iff] at hmin
  obtain ⟨m1, m2, -⟩ := hmin
  have hlog : s.log ≠ [] := fun h => by rw [h] at m1; cases m1
  have hn0 : s.ncyc ≠ 0 := by
    intro h0
    have : ∀ (k : ℕ) (t : State K), run c x0.length stop (split c.opts.length x0) k = .ok t → t.ncyc = 0 → t.log = [] := by
      intro k
      induction k with
      | zero => intro t ht _; cases ht; rfl
      | succ k ih =>
        intro t ht h0
        simp only [run] at ht
        split at ht
        · cases ht
        rename_i t0 ht0
        unfold cycle at ht
        split_ifs at ht
        · cases ht; exact ih _ ht0 h0
        · split at ht
          · cases ht
          split at ht
          · cases ht
          cases ht
          simp at h0
    exact hlog (this _ _ hrun h0)
  refine ⟨⟨m1, rfl, fun z hz => ?_⟩, hi.log x m1, hi.log, hi.mem, ?_, hi.npops, hi.good hn0, Nat.one_le_iff_ne_zero.2 hn0, hi.cyc⟩
  · simp only [NotWorse, if_true]; exact m2 z hz
  · show (flatMembers s.pops).length = _
    rw [hi.count, hsp.length_eq, List.length_map]

/-- Members labelled with a population number that does not exist are silently dropped. -/
theorem C41_out_of_range {n : ℕ} {x0 : List (List K × ℕ)} (h : ∀ p ∈ x0, n ≤ p.2) : flatMembers (split n x0) = [] := by
  have : ∀ i, i < n → x0.filter (fun p => p.2 = i) = [] := by
    intro i hi
    rw [List.filter_eq_nil_iff]
    intro p hp
    have := h p hp
    simp; omega
  simp only [split, flatMembers, List.flatMap_map, Pop.init]
  rw [List.flatMap_eq_nil_iff]
  intro i hi
  rw [this i (List.mem_range.1 hi)]
  rfl

theorem mem_le_flat {ps : List (Pop K)} {p : Pop K} (h : p ∈ ps) : p.members.length ≤ (flatMembers ps).length := by
  obtain ⟨a, b, rfl⟩ := List.append_of_mem h
  simp [flatMembers]
  omega

/-- An evolver that returns whenever the population is big enough, on the keyword arguments the ensemble passes for `g` generations per cycle. -/
def EvolverTotal (P : List K → Prop) (o : Opt K) (g : ℕ) (ev : Evolver K) : Prop :=
  ∀ cyc N kw ms, annealed o cyc N g = .ok kw → enough o.algo o.mu ms.length = true → (∀ x ∈ ms, P x) → ∃ r, ev kw ms = .ok r

theorem evolute_pop_total {fit : List K → K} {P : List K → Prop} {o : Opt K} {ev : Evolver K} (he : EvolverOK fit P ev)
    {g : ℕ} (ht : EvolverTotal P o g ev) (hmu : 1 ≤ o.mu) {cyc N rows : ℕ} (hN : N * g ≠ 1) {p : Pop K} (hp : Ready p)
    (hfirst : p.fitlog = [] → enough o.algo o.mu p.members.length = true) (hP : ∀ x ∈ p.members, P x) (hrow : p.members.length ≤ rows) :
    ∃ r, p.evolute o ev g cyc N rows = .ok r := by
  unfold Pop.evolute
  by_cases hen : enough o.algo o.mu p.members.length = false
  · rw [if_pos hen]
    have hne : p.fitlog ≠ [] := fun h => by rw [hfirst h] at hen; cases hen
    have hg := hp.2.resolve_left hne
    rw [if_neg hne, if_neg]
    · exact ⟨_, rfl⟩
    · rintro ⟨_, h | h⟩
      · rw [hp.1] at h; omega
      · exact h (by rw [hg.nfit, hg.n])
  · rw [if_neg hen]
    have hen' : enough o.algo o.mu p.members.length = true := by simpa using hen
    obtain ⟨kw, hkw⟩ : ∃ kw, annealed o cyc N g = .ok kw := by
      unfold annealed frac
      simp only [hN, if_false]
      exact ⟨_, rfl⟩
    obtain ⟨⟨last, log⟩, hr⟩ := ht cyc N kw p.members hkw hen' hP
    obtain ⟨e1, e2, e3⟩ := he kw p.members last log hP hr
    have hpos : 1 ≤ p.members.length := by
      unfold enough at hen'
      cases h : o.algo <;> rw [h] at hen' <;> simp at hen' <;> omega
    simp only [hkw, hr]
    cases hm : (last.map Prod.snd).min? with
    | none =>
      rw [List.min?_eq_none_iff, List.map_eq_nil_iff] at hm
      rw [hm] at e1
      simp at e1
      omega
    | some y =>
      dsimp only
      rw [if_neg]
      · exact ⟨_, rfl⟩
      · rintro ⟨_, h | h⟩
        · rw [hp.1] at h; omega
        · exact h (by rw [e1, hp.1])

theorem evolveAll_total {c : Conf K} {fit : List K → K} {P : List K → Prop} (he : ∀ j cyc, EvolverOK fit P (c.evolver j cyc)) {rows cyc : ℕ}
    (hN : c.Ncyc * c.gpc ≠ 1) : ∀ {os : List (Opt K)} {ps : List (Pop K)} (j : ℕ), os.length = ps.length → (∀ o ∈ os, 1 ≤ o.mu) →
      (∀ (i : ℕ) (o : Opt K), os[i]? = some o → EvolverTotal P o c.gpc (c.evolver (j + i) cyc)) → (∀ p ∈ ps, Ready p) →
      (∀ (i : ℕ) (o : Opt K) (p : Pop K), os[i]? = some o → ps[i]? = some p → p.fitlog = [] → enough o.algo o.mu p.members.length = true) →
      (∀ x ∈ flatMembers ps, P x) → (flatMembers ps).length ≤ rows → ∃ r, evolveAll c rows cyc j os ps = .ok r := by
  intro os
  induction os with
  | nil =>
    intro ps j hl _ _ _ _ _ _
    exact ⟨([], []), by cases ps <;> rfl⟩
  | cons o os ih =>
    intro ps j hl hmu ht hr hf hP hrow
    cases ps with
    | nil => simp at hl
    | cons p ps =>
      simp only [flatMembers, List.flatMap_cons, List.mem_append, List.length_append] at hP hrow
      obtain ⟨⟨p', l⟩, h1⟩ := evolute_pop_total (he j cyc) (by simpa using ht 0 o rfl) (hmu o (by simp)) (g := c.gpc) (cyc := cyc) hN (hr p (by simp))
        (hf 0 o p rfl rfl) (fun x hx => hP x (Or.inl hx)) (rows := rows) (by omega)
      obtain ⟨⟨ps', l'⟩, h2⟩ := ih (ps := ps) (j + 1) (by simpa using hl) (fun o' ho' => hmu o' (by simp [ho']))
        (fun i o' ho' => by have := ht (i + 1) o' (by simpa using ho'); rwa [show j + 1 + i = j + (i + 1) by omega])
        (fun q hq => hr q (by simp [hq])) (fun i o' p' ho' hp' => hf (i + 1) o' p' (by simpa using ho') (by simpa using hp'))
        (fun x hx => hP x (Or.inr hx)) (by simp only [flatMembers]; omega)
      exact ⟨(p' :: ps', l ++ l'), by simp only [evolveAll, h1, h2]⟩

/-- **C41.** The ensemble run always returns: at least two cycles, at least one optimiser, starting populations of sufficient size, legal options, and
evolvers that return on populations of sufficient size.  In particular the fixed-size log tables never overflow and a population that has shrunk
below its minimum only sits out. -/
theorem C41_total {c : Conf K} (hs : c.so.OK) (hr : c.rng.OK) (ho : OrderGiven c.wt c.order) (hp : PowOK c.pow) (ha : c.alpha.NonNeg)
    (hb : c.beta.NonNeg) (hq : c.q.Unit) (hN : 2 ≤ c.Ncyc) (hg : 1 ≤ c.gpc) (hne : c.opts ≠ []) (hmu : ∀ o ∈ c.opts, 1 ≤ o.mu)
    {fit : List K → K} {P : List K → Prop} (he : ∀ j cyc, EvolverOK fit P (c.evolver j cyc))
    (ht : ∀ (j : ℕ) (o : Opt K) (cyc : ℕ), c.opts[j]? = some o → EvolverTotal P o c.gpc (c.evolver j cyc)) {stop : ℕ → Bool}
    {x0 : List (List K × ℕ)} (hx : ∀ p ∈ x0, P p.1 ∧ p.2 < c.opts.length)
    (hsz : ∀ (j : ℕ) (o : Opt K), c.opts[j]? = some o → enough o.algo o.mu (x0.filter (fun p => p.2 = j)).length = true) :
    ∃ r, evolute c fit stop x0 = .ok r := by
  have hsp := split_members (n := c.opts.length) (x0 := x0) (fun p hp => (hx p hp).2)
  have hready : ∀ p ∈ split c.opts.length x0, Ready p := fun p hp => by
    obtain ⟨i, _, rfl⟩ := List.mem_map.1 hp
    exact ⟨rfl, Or.inl rfl⟩
  have hPm : ∀ x ∈ flatMembers (split c.opts.length x0), P x := fun x hx' => by
    obtain ⟨p, hp, rfl⟩ := List.mem_map.1 (hsp.mem_iff.1 hx')
    exact (hx p hp).1
  have hNg : c.Ncyc * c.gpc ≠ 1 := by
    intro h
    have := Nat.eq_one_of_mul_eq_one_right h
    omega
  have hrun : ∀ k, k ≤ c.Ncyc → ∃ s, run c x0.length stop (split c.opts.length x0) k = .ok s ∧ (k ≠ 0 → s.log ≠ []) := by
    intro k
    induction k with
    | zero => intro _; exact ⟨_, rfl, by simp⟩
    | succ k ih =>
      intro hk
      obtain ⟨s, h1, h2⟩ := ih (by omega)
      have hi := run_inv hs hr he (by simp [split]) hready hPm h1
      by_cases hst : s.stopped = true
      · refine ⟨s, by simp only [run, h1, cycle, hst, if_true], fun _ => h2 ?_⟩
        intro h0
        subst h0
        cases h1
        cases hst
      · have hcount : (flatMembers s.pops).length = x0.length := by rw [hi.count, hsp.length_eq, List.length_map]
        have hfull := hi.full (by simpa using hst)
        have hfst : ∀ (i : ℕ) (o : Opt K) (p : Pop K), c.opts[i]? = some o → s.pops[i]? = some p → p.fitlog = [] →
            enough o.algo o.mu p.members.length = true := by
          intro i o p ho' hp' hfl
          by_cases h0 : s.ncyc = 0
          · have hk0 : k = 0 := by omega
            subst hk0
            cases h1
            simp only [split, List.getElem?_map] at hp'
            cases e : (List.range c.opts.length)[i]? with
            | none => rw [e] at hp'; cases hp'
            | some i' =>
              rw [e] at hp'
              cases hp'
              rw [List.getElem?_eq_some_iff] at e
              obtain ⟨_, e⟩ := e
              simp only [List.getElem_range] at e
              subst e
              simpa [Pop.init] using hsz i o ho'
          · exact absurd hfl (hi.good h0 p (List.mem_of_getElem? hp')).hist
        obtain ⟨⟨ps1, l⟩, e1⟩ := evolveAll_total he (rows := x0.length) (cyc := s.ncyc + 1) hNg (os := c.opts) (ps := s.pops) 0 hi.npops.symm hmu
          (fun i o ho' => by simpa using ht i o _ ho') hi.ready hfst hi.mem (by omega)
        obtain ⟨a1, a2, a3, a4, a5⟩ := evolveAll_ok he 0 hi.npops.symm hi.ready hi.mem e1
        have hne1 : ps1 ≠ [] := by
          intro h0
          rw [h0] at a1
          rw [hi.npops] at a1
          exact hne (List.eq_nil_of_length_eq_zero a1.symm)
        obtain ⟨⟨w, d, ps2⟩, e2⟩ := C41_migrate_total hs hr ho hp ha hb hq (cyc := s.ncyc + 1) (by omega) (by omega) hN hne1 a2
        have hstep : run c x0.length stop (split c.opts.length x0) (k + 1) = .ok ⟨ps2, s.log ++ l, s.ncyc + 1, stop (s.ncyc + 1)⟩ := by
          simp only [run, h1, cycle, hst, e1, e2, if_false, Bool.false_eq_true]
        refine ⟨_, hstep, fun _ => ?_⟩
        by_cases hk0 : k = 0
        · subst hk0
          cases h1
          -- in the first cycle every population evolves
          cases hopts : c.opts with
          | nil => exact absurd hopts hne
          | cons o os =>
            have hps : split c.opts.length x0 = Pop.init ((x0.filter (fun p => p.2 = 0)).map Prod.fst) ::
                ((List.range os.length).map (· + 1)).map (fun i => Pop.init ((x0.filter (fun p => p.2 = i)).map Prod.fst)) := by
              rw [hopts]
              simp only [split, List.length_cons, List.range_succ_eq_map, List.map_cons]
            have hfirst := hsz 0 o (by rw [hopts]; rfl)
            rw [hopts] at e1
            rw [hopts] at hps
            rw [hps] at e1
            simp only [evolveAll] at e1
            split at e1
            · cases e1
            rename_i p1 l1 q1
            split at e1
            · cases e1
            rename_i ps3 l2 q2
            cases e1
            have hmem0 : ∀ x ∈ (Pop.init ((x0.filter (fun p => p.2 = 0)).map Prod.fst) : Pop K).members, P x := by
              intro x hx'
              obtain ⟨p, hp, rfl⟩ := List.mem_map.1 hx'
              exact (hx p (List.mem_of_mem_filter hp)).1
            obtain ⟨z1, z2, z3, z4, z5⟩ := evolute_pop_ok (he 0 _) ⟨rfl, Or.inl rfl⟩ hmem0 q1
            have hpos : 1 ≤ (x0.filter (fun p => p.2 = 0)).length := by
              have hmu0 := hmu o (by rw [hopts]; simp)
              unfold enough at hfirst
              cases h : o.algo <;> rw [h] at hfirst <;> simp at hfirst <;> omega
            rcases z5 with ⟨z6, -⟩ | ⟨z6, -⟩
            · exact absurd (by rw [z6]; rfl) z1.hist
            · have hm1 : p1.members ≠ [] := by
                intro h0
                rw [h0] at z2
                simp [Pop.init] at z2
                omega
              obtain ⟨x, hx1⟩ := List.exists_mem_of_ne_nil _ hm1
              have := z6 x hx1
              intro hcon
              simp only [List.nil_append, List.append_eq_nil_iff] at hcon
              rw [hcon.1] at this
              cases this
        · intro hcon
          simp only [List.append_eq_nil_iff] at hcon
          exact h2 hk0 hcon.1
  obtain ⟨s, h1, h2⟩ := hrun c.Ncyc le_rfl
  unfold evolute
  simp only [h1]
  cases hm : s.log.argmin fit with
  | none => exact absurd (List.argmin_eq_none.1 hm) (h2 (by omega))
  | some x => exact ⟨_, rfl⟩

end
end Neorl.AEO
