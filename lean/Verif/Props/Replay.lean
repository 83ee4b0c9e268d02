import Verif.Replay

/-!
# Property theorems C34, C52: replay buffers
-/

set_option linter.unusedSectionVars false
set_option linter.unusedVariables false

namespace Neorl.Replay

variable {α : Type}

/-- **C34.** After any history of `add`/`extend` on a buffer of positive capacity no call has raised, the number of stored
transitions is `min n cap`, and the storage read from the write position on, cyclically, is exactly the last `cap` submitted transitions
from oldest to newest.  So each overwritten transition is the oldest. -/
theorem C34_fifo {cap : ℕ} (hc : 0 < cap) (ops : List (Op α)) :
    ∃ b, run (new cap) ops = .ok b ∧ b.maxsize = cap ∧
      b.storage.length = min (ops.flatMap Op.items).length cap ∧
      b.storage.rotate b.next = lastN cap (ops.flatMap Op.items) ∧
      List.Perm b.storage (lastN cap (ops.flatMap Op.items)) := by
  obtain ⟨b, h1, h2⟩ := run_inv hc (inv_new (α := α) hc) (ops := ops)
  rw [List.nil_append] at h2
  refine ⟨b, h1, h2.size, h2.len, h2.order, ?_⟩
  rw [← h2.order]
  exact (List.rotate_perm b.storage b.next).symm

/-- **C34, slots.** In terms of slots: the `k`-th submitted transition, if among the last `cap`, sits in slot `k % cap`. -/
theorem C34_slots {cap : ℕ} (hc : 0 < cap) (ops : List (Op α)) {b : Buf α} (h : run (new cap) ops = .ok b) (k : ℕ)
    (h1 : (ops.flatMap Op.items).length ≤ k + cap) (h2 : k < (ops.flatMap Op.items).length) :
    b.storage[k % cap]? = (ops.flatMap Op.items)[k]? := by
  have key : ∀ (ys xs : List α) (b0 b1 : Buf α), Inv cap b0 xs → (b0.next = xs.length % cap) →
      (∀ k, xs.length ≤ k + cap → k < xs.length → b0.storage[k % cap]? = xs[k]?) → extend b0 ys = .ok b1 →
      (∀ k, (xs ++ ys).length ≤ k + cap → k < (xs ++ ys).length → b1.storage[k % cap]? = (xs ++ ys)[k]?) ∧
      b1.next = (xs ++ ys).length % cap := by
    intro ys
    induction ys with
    | nil =>
      intro xs b0 b1 _ hn hk he
      simp only [extend] at he
      cases he
      simpa using ⟨hk, hn⟩
    | cons y ys ih =>
      intro xs b0 b1 hi hn hk he
      obtain ⟨b', e1, e2⟩ := add_inv hc hi y
      simp only [extend, e1] at he
      have hb' := e1
      unfold add at hb'
      rw [if_neg (by rw [hi.size]; omega)] at hb'
      simp only [Except.ok.injEq] at hb'
      have := ih (xs ++ [y]) b' b1 e2 ?_ ?_ he
      · simpa using this
      · rw [← hb']; simp only [hi.size, hn, List.length_append, List.length_singleton, Nat.mod_add_mod]
      · intro k hk1 hk2
        simp only [List.length_append, List.length_singleton] at hk1 hk2
        rw [← hb']
        simp only
        have hmod : k % cap < cap := Nat.mod_lt _ hc
        by_cases hkx : k = xs.length
        · subst hkx
          rw [← hn]
          split_ifs with hge
          · have : b0.next = b0.storage.length := by
              by_cases hl : b0.storage.length < cap
              · exact hi.part hl
              · have := hi.lt; have := hi.len; omega
            rw [this]; simp
          · rw [List.getElem?_set_self (by omega)]; simp
        · have hold := hk k (by omega) (by omega)
          have hne : b0.next ≠ k % cap := by
            rw [hn]
            intro hcon
            have hdvd : cap ∣ xs.length - k := (Nat.modEq_iff_dvd' (by omega)).1 hcon.symm
            have := Nat.le_of_dvd (by omega) hdvd
            omega
          rw [List.getElem?_append_left (by omega), ← hold]
          split_ifs with hge
          · rw [List.getElem?_append_left]
            have hold' := hold.trans (List.getElem?_eq_getElem (by omega : k < xs.length))
            exact (List.getElem?_eq_some_iff.1 hold').1
          · rw [List.getElem?_set_ne hne]
  have flat : ∀ (ops : List (Op α)) (b0 b1 : Buf α), run b0 ops = .ok b1 → extend b0 (ops.flatMap Op.items) = .ok b1 := by
    intro ops
    induction ops with
    | nil => intro b0 b1 h; simpa [run, extend] using h
    | cons o ops ih =>
      intro b0 b1 h
      simp only [run] at h
      split at h
      · cases h
      · rename_i b' hb'
        have h2 := ih _ _ h
        rw [List.flatMap_cons]
        have happ : ∀ (xs ys : List α) (c0 c1 : Buf α), extend c0 xs = .ok c1 → extend c0 (xs ++ ys) = extend c1 ys := by
          intro xs
          induction xs with
          | nil => intro ys c0 c1 h; simp only [extend] at h; cases h; rfl
          | cons x xs ihx =>
            intro ys c0 c1 h
            simp only [extend] at h
            simp only [List.cons_append, extend]
            split at h
            · cases h
            · rename_i c' hc'
              exact ihx ys _ _ h
        rw [happ o.items _ b0 b' ?_, h2]
        cases o with
        | add x => simp only [step] at hb'; simp [Op.items, extend, hb']
        | extend xs => simpa [Op.items, step] using hb'
  have := key (ops.flatMap Op.items) [] (new cap) b (inv_new hc) (by simp [new]) (by simp) (flat _ _ _ h)
  simpa using this.1 k (by simpa using h1) (by simpa using h2)

/-- **C34, capacity zero.** A buffer of capacity zero raises on the first insertion. -/
theorem C34_capacity_zero (x : α) : add (new 0) x = .error .zeroDivision := rfl

/-- **C34, sampling.** A sample from a non-empty buffer returns, for each draw, one of the last `cap` submitted transitions. -/
theorem C34_sample {cap : ℕ} (hc : 0 < cap) (ops : List (Op α)) {b : Buf α} (h : run (new cap) ops = .ok b)
    {draws : List ℕ} (hd : ∀ i ∈ draws, i < b.storage.length) :
    ∃ xs, sample b draws = .ok xs ∧ xs.length = draws.length ∧ ∀ x ∈ xs, x ∈ lastN cap (ops.flatMap Op.items) := by
  obtain ⟨b', h1, _, _, _, hp⟩ := C34_fifo hc ops
  rw [h] at h1
  cases h1
  obtain ⟨xs, g1, g2⟩ := encodeSample_ok hd
  refine ⟨xs, ?_, g2.length_eq.symm, ?_⟩
  · unfold sample
    rw [if_neg]
    · exact g1
    · rintro ⟨hn, hne⟩
      obtain ⟨i, hi⟩ := List.exists_mem_of_ne_nil _ hne
      have := hd i hi
      simp [hn] at this
  · intro x hx
    rw [← hp.mem_iff]
    obtain ⟨n, hn, rfl⟩ := List.mem_iff_getElem.1 hx
    exact List.mem_of_getElem? ((List.forall₂_iff_get.1 g2).2 n (by have := g2.length_eq; omega) hn)

example : ((run (new 3) [.add 1, .extend [2, 3, 4], .add 5]).map (fun b => (b.storage, b.next))) = .ok ([4, 5, 3], 2) := by
  decide

/-- **C52.** After any sequence of `put`s the ACER buffer holds the last `size / n_steps` rollouts; every read returns, for each
environment `e`, the part of one whole such rollout which belongs to `e`, never uninitialised memory. -/
theorem C52_get {ρ : Type} {nEnv nSteps size : ℕ} (hn : 0 < nSteps) (hs : nSteps ≤ size) (xs : List (ℕ → ρ)) (hx : xs ≠ []) :
    ∃ b0 b : ABuf ρ, ABuf.new nEnv nSteps size = .ok b0 ∧ b0.putAll xs = .ok b ∧ b.num = min xs.length (size / nSteps) ∧
      ∀ idx : ℕ → ℕ, (∀ e, idx e < b.num) → ∃ out, b.get idx = .ok out ∧ out.length = nEnv ∧
        ∀ (e : ℕ), e < nEnv → ∃ k x, xs[k]? = some x ∧ xs.length ≤ k + size / nSteps ∧ out[e]? = some (some (x e)) := by
  have hsz : 0 < size / nSteps := Nat.div_pos hs hn
  have h0 : AInv (size / nSteps) (⟨nEnv, nSteps, size / nSteps, fun _ => none, 0, 0⟩ : ABuf ρ) [] :=
    ⟨rfl, by simp, by simp, by simp⟩
  obtain ⟨b, h1, h2, h3, h4⟩ := putAll_inv hsz h0 (ys := xs)
  rw [List.nil_append] at h4
  refine ⟨_, b, by unfold ABuf.new; rw [if_neg (by omega)], h1, h4.num, ?_⟩
  intro idx hidx
  have hpos : 0 < xs.length := List.length_pos_of_ne_nil hx
  refine ⟨_, by unfold ABuf.get; rw [if_pos (by rw [h4.num]; omega)], by simp [h2], ?_⟩
  intro e he
  -- the rollout stored at location `idx e`
  have hi := hidx e
  rw [h4.num] at hi
  obtain ⟨k, hk1, hk2, hk3⟩ : ∃ k, k < xs.length ∧ xs.length ≤ k + size / nSteps ∧ k % (size / nSteps) = idx e := by
    set c := size / nSteps with hcdef
    by_cases hlt : xs.length ≤ c
    · exact ⟨idx e, by omega, by omega, Nat.mod_eq_of_lt (by omega)⟩
    · set n := xs.length with hn'
      -- write `n - c + ((idx e + c * n - (n - c)) % c)`
      refine ⟨n - c + (idx e + c * n - (n - c)) % c, ?_, by omega, ?_⟩
      · have := Nat.mod_lt (idx e + c * n - (n - c)) hsz
        omega
      · rw [Nat.add_mod_mod]
        have hge : n - c ≤ idx e + c * n := by
          have : n ≤ c * n := Nat.le_mul_of_pos_left n hsz
          omega
        have : n - c + (idx e + c * n - (n - c)) = idx e + c * n := by omega
        rw [this, Nat.add_mul_mod_self_left, Nat.mod_eq_of_lt (by omega)]
  have hc := h4.content k hk2 hk1
  rw [hk3] at hc
  refine ⟨k, xs[k], List.getElem?_eq_getElem hk1, hk2, ?_⟩
  rw [List.getElem?_map, List.getElem?_range (by rw [h2]; exact he)]
  simp only [Option.map_some]
  rw [hc, List.getElem?_eq_getElem hk1]
  simp

/-- **C52, slots.** Rollout `k`, if among the last `size / n_steps`, is in location `k % (size / n_steps)`. -/
theorem C52_ring {ρ : Type} {nEnv nSteps size : ℕ} (hn : 0 < nSteps) (hs : nSteps ≤ size) (xs : List (ℕ → ρ)) {b0 b : ABuf ρ}
    (h0 : ABuf.new nEnv nSteps size = .ok b0) (h : b0.putAll xs = .ok b) (k : ℕ)
    (h1 : xs.length ≤ k + size / nSteps) (h2 : k < xs.length) : b.slots (k % (size / nSteps)) = xs[k]? := by
  unfold ABuf.new at h0
  rw [if_neg (by omega)] at h0
  cases h0
  have hsz : 0 < size / nSteps := Nat.div_pos hs hn
  have h0 : AInv (size / nSteps) (⟨nEnv, nSteps, size / nSteps, fun _ => none, 0, 0⟩ : ABuf ρ) [] :=
    ⟨rfl, by simp, by simp, by simp⟩
  obtain ⟨b', g1, _, _, g4⟩ := putAll_inv hsz h0 (ys := xs)
  rw [h] at g1
  cases g1
  simpa using g4.content k (by simpa using h1) (by simpa using h2)

/-- **C52, frame test.** `has_atleast` answers whether `frames // n_steps` rollouts have been kept; asking for less than one
rollout is answered yes on an empty buffer, which then cannot be read. -/
theorem C52_has_atleast {ρ : Type} {nEnv nSteps size : ℕ} (hn : 0 < nSteps) (hs : nSteps ≤ size) (xs : List (ℕ → ρ))
    {b0 b : ABuf ρ} (h0 : ABuf.new nEnv nSteps size = .ok b0) (h : b0.putAll xs = .ok b) (frames : ℕ) :
    b.hasAtLeast frames = true ↔ frames / nSteps ≤ min xs.length (size / nSteps) := by
  unfold ABuf.new at h0
  rw [if_neg (by omega)] at h0
  cases h0
  have hsz : 0 < size / nSteps := Nat.div_pos hs hn
  have h0 : AInv (size / nSteps) (⟨nEnv, nSteps, size / nSteps, fun _ => none, 0, 0⟩ : ABuf ρ) [] :=
    ⟨rfl, by simp, by simp, by simp⟩
  obtain ⟨b', g1, g2, g3, g4⟩ := putAll_inv hsz h0 (ys := xs)
  rw [h] at g1
  cases g1
  simp only [ABuf.hasAtLeast, decide_eq_true_eq, g4.num, g3, List.nil_append, ge_iff_le]

/-- **C52, negation.** A requested size below one rollout makes every `put` raise; an empty buffer passes the frame test for
few frames and still cannot be read. -/
theorem C52_too_small {ρ : Type} {nEnv nSteps size : ℕ} (hs : size < nSteps) (x : ℕ → ρ) :
    ∃ b0 : ABuf ρ, ABuf.new nEnv nSteps size = .ok b0 ∧ b0.put x = .error .indexError ∧ b0.hasAtLeast size = true ∧
      ∀ idx, b0.get idx = .error .assertion := by
  refine ⟨_, by unfold ABuf.new; rw [if_neg (by omega)], ?_, ?_, ?_⟩
  · simp [ABuf.put, Nat.div_eq_of_lt hs]
  · simp [ABuf.hasAtLeast, Nat.div_eq_of_lt hs]
  · intro idx; rfl

example : (((ABuf.new 2 5 17 : Py (ABuf ℕ)).bind (fun b => b.putAll [fun e => 10 + e, fun e => 20 + e, fun e => 30 + e, fun e => 40 + e])).bind
    (fun b => b.get (fun e => e))) = .ok [some 40, some 21] := by decide

end Neorl.Replay
