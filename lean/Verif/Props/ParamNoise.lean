import Verif.ParamNoise

/-!
# C146: parameter noise of DQN
-/

set_option linter.unusedSectionVars false
set_option linter.unusedVariables false

namespace Neorl.ParamNoise

/-! ### Which variables are perturbed -/

theorem not_infix {a b : List Char} (h : ∃ x ∈ a, x ∉ b) : ¬ a <:+: b := fun hi => by
  obtain ⟨x, h1, h2⟩ := h
  exact h2 (hi.subset h1)

theorem digits_free {x : Char} (hx : x.isDigit = false) (k : ℕ) : x ∉ Nat.toDigits 10 k := fun h => by
  have := Nat.isDigit_of_mem_toDigits (by decide) (by decide) h
  rw [hx] at this
  cases this

/-- **C146.** The filter accepts exactly the trainable variables whose name contains `fully_connected`. -/
theorem C146_filter (trainable : List String) (name : String) :
    filter trainable name = true ↔ name ∈ trainable ∧ ∃ before after, name.toList = before ++ "fully_connected".toList ++ after := by
  unfold filter
  split_ifs with h1 h2
  · obtain ⟨s, t, e⟩ := h2
    exact ⟨fun _ => ⟨h1, s, t, e.symm⟩, fun _ => rfl⟩
  · refine ⟨fun h => (by cases h), ?_⟩
    rintro ⟨_, s, t, e⟩
    exact absurd ⟨s, t, e.symm⟩ h2
  · exact ⟨fun h => (by cases h), fun h => absurd h.1 h1⟩

theorem name_infix (pre : List Char) (hf : 'f' ∉ pre) (hy : 'y' ∉ pre) (l : Layer) {v : List Char} (hv : v ∈ l.names) :
    "fully_connected".toList <:+: pre ++ v ↔ ∃ k, l = .dense k := by
  cases l with
  | conv i =>
    refine ⟨fun h => absurd h (not_infix ⟨'y', by decide, ?_⟩), fun ⟨k, h⟩ => by cases h⟩
    simp only [Layer.names, List.map_cons, List.map_nil, List.mem_cons, List.not_mem_nil, or_false] at hv
    have hd : 'y' ∉ Nat.toDigits 10 (i.val + 1) := digits_free rfl _
    rcases hv with rfl | rfl <;> simp [hy, hd]
  | fc1 =>
    refine ⟨fun h => absurd h (not_infix ⟨'y', by decide, ?_⟩), fun ⟨k, h⟩ => by cases h⟩
    simp only [Layer.names, List.mem_cons, List.not_mem_nil, or_false] at hv
    rcases hv with rfl | rfl <;> simp [hy]
  | norm k =>
    refine ⟨fun h => absurd h (not_infix ⟨'f', by decide, ?_⟩), fun ⟨k, h⟩ => by cases h⟩
    simp only [Layer.names, List.map_cons, List.map_nil, List.mem_cons, List.not_mem_nil, or_false] at hv
    have hd : 'f' ∉ Nat.toDigits 10 k := digits_free rfl _
    rcases hv with rfl | rfl <;> unfold unique <;> split_ifs <;> simp [hf, hd]
  | dense k =>
    refine ⟨fun _ => ⟨k, rfl⟩, fun _ => ?_⟩
    simp only [Layer.names, List.map_cons, List.map_nil, List.mem_cons, List.not_mem_nil, or_false] at hv
    have : ∀ w : List Char, "fully_connected".toList <:+: pre ++ (unique "fully_connected" k ++ w) := by
      intro w
      unfold unique
      split_ifs
      · exact ⟨pre, w, by simp⟩
      · exact ⟨pre, '_' :: Nat.toDigits 10 k ++ w, by simp⟩
    rcases hv with rfl | rfl <;> exact this _

/-- **C146.** In the networks the library builds (whatever the number of hidden layers), the variables perturbed are those of the dense layers of both streams: no convolution, not the dense layer that ends the convolutional part (it is called `fc1`),
no layer normalisation.  The output layer is always among them, so the noise never vanishes. -/
theorem C146_layers (cnn layerNorm dueling : Bool) (n : ℕ) {copy : String} (hc : copy = "perturbed_model" ∨ copy = "adaptive_model") :
    (∀ p ∈ layers copy cnn layerNorm dueling n, "fully_connected".toList <:+: p.2 ↔ ∃ k, p.1 = .dense k) ∧
    (∃ p ∈ layers copy cnn layerNorm dueling n, "fully_connected".toList <:+: p.2) := by
  have hpre : ∀ str ∈ ["/model/action_value/", "/model/state_value/"], 'f' ∉ ("deepq/" ++ copy ++ str).toList ∧ 'y' ∉ ("deepq/" ++ copy ++ str).toList := by
    intro str hs
    simp only [List.mem_cons, List.not_mem_nil, or_false] at hs
    rcases hc with rfl | rfl <;> rcases hs with rfl | rfl <;> decide
  have key : ∀ p ∈ layers copy cnn layerNorm dueling n, "fully_connected".toList <:+: p.2 ↔ ∃ k, p.1 = .dense k := by
    intro p hp
    unfold layers at hp
    rw [List.mem_append] at hp
    rcases hp with hp | hp
    · simp only [List.mem_flatMap, List.mem_map] at hp
      obtain ⟨l, -, v, hv, rfl⟩ := hp
      exact name_infix _ (hpre _ (by simp)).1 (hpre _ (by simp)).2 l hv
    · split_ifs at hp
      · simp only [List.mem_flatMap, List.mem_map] at hp
        obtain ⟨l, -, v, hv, rfl⟩ := hp
        exact name_infix _ (hpre _ (by simp)).1 (hpre _ (by simp)).2 l hv
      · cases hp
  refine ⟨key, ?_⟩
  have hd : ∃ k, Layer.dense k ∈ actionLayers cnn layerNorm n := ⟨if cnn then 0 else n, by simp [actionLayers]⟩
  obtain ⟨k, hk⟩ := hd
  have hm : (Layer.dense k, ("deepq/" ++ copy ++ "/model/action_value/").toList ++ (unique "fully_connected" k ++ "/weights:0".toList)) ∈ layers copy cnn layerNorm dueling n := by
    unfold layers
    refine List.mem_append_left _ ?_
    simp only [List.mem_flatMap, List.mem_map]
    exact ⟨_, hk, _, by simp [Layer.names], rfl⟩
  exact ⟨_, hm, (key _ hm).2 ⟨k, rfl⟩⟩

/-- A convolutional network with one hidden layer in the state stream. -/
example : (layers "perturbed_model" true false true 1).map (fun p => String.ofList p.2) =
    ["deepq/perturbed_model/model/action_value/c1/w:0", "deepq/perturbed_model/model/action_value/c1/b:0",
     "deepq/perturbed_model/model/action_value/c2/w:0", "deepq/perturbed_model/model/action_value/c2/b:0",
     "deepq/perturbed_model/model/action_value/c3/w:0", "deepq/perturbed_model/model/action_value/c3/b:0",
     "deepq/perturbed_model/model/action_value/fc1/w:0", "deepq/perturbed_model/model/action_value/fc1/b:0",
     "deepq/perturbed_model/model/action_value/fully_connected/weights:0", "deepq/perturbed_model/model/action_value/fully_connected/biases:0",
     "deepq/perturbed_model/model/state_value/fully_connected/weights:0", "deepq/perturbed_model/model/state_value/fully_connected/biases:0",
     "deepq/perturbed_model/model/state_value/fully_connected_1/weights:0", "deepq/perturbed_model/model/state_value/fully_connected_1/biases:0"] := by decide +kernel

/-! ### The network that acts -/

variable {K : Type} [Field K] [LinearOrder K] [IsStrictOrderedRing K] {ι A : Type}

/-- After `n` actions an episode begins: these are the first, or the last action ended one. -/
def Begins (c : Cfg K ι A) (net : Net K ι) (n : ℕ) : Prop := n = 0 ∨ c.dn (learn c net n).acts = true

theorem reset_iff (c : Cfg K ι A) (net : Net K ι) (n : ℕ) : (learn c net n).reset = true ↔ Begins c net n := by
  unfold Begins
  cases n with
  | zero => simp [learn, start]
  | succ n =>
    show (if c.dn (learn c net (n + 1)).acts then true else false) = true ↔ _
    simp

/-- **C146.** During an episode that began after `n` actions, one and the same network acts: the online network as it was then, plus noise on the accepted variables, of the size that was current (before or after the
update in the same call).  Training in between does not change it. -/
theorem C146_episode (c : Cfg K ι A) (net : Net K ι) {n : ℕ} (hb : Begins c net n) :
    ∃ σ, (σ = (learn c net n).net.scale ∨ σ = (learn c net (n + 1)).net.scale) ∧
      ∀ k, (∀ j, n < j → j ≤ n + k + 1 → ¬ Begins c net j) →
        (learn c net (n + k + 2)).used[n + k + 1]? = some fun i => if c.flag i = true then c.θ (learn c net n).acts i + σ * (c.draw n).z i else c.θ (learn c net n).acts i := by
  have hr := (reset_iff c net n).2 hb
  refine ⟨read (c.race n).scalePert (learn c net n).net.scale (learn c net (n + 1)).net.scale, ?_, ?_⟩
  · unfold read
    split_ifs
    · exact .inr rfl
    · exact .inl rfl
  · intro k hk
    have hp : ∀ j, j ≤ k + 1 → (learn c net (n + 1 + j)).net.pert = perturb c.flag (read (c.race n).scalePert (learn c net n).net.scale (learn c net (n + 1)).net.scale) (c.draw n).z (c.θ (learn c net n).acts) := by
      intro j
      induction j with
      | zero =>
        intro _
        show (step c (learn c net n)).net.pert = _
        rw [pert_step, hr, if_pos rfl, (learn_len c net n).1]
        rfl
      | succ j ih =>
        intro hj
        show (step c (learn c net (n + 1 + j))).net.pert = _
        have h0 : (learn c net (n + 1 + j)).reset = false := by
          rw [← Bool.not_eq_true, reset_iff]
          exact hk _ (by omega) (by omega)
        rw [pert_step, h0, if_neg (by simp), ih (by omega)]
    have e : n + k + 2 = n + 1 + k + 1 := by omega
    have e2 : n + k + 1 = n + 1 + k := by omega
    rw [e, e2]
    show (step c (learn c net (n + 1 + k))).used[n + 1 + k]? = _
    rw [used_step, List.getElem?_append_right (by rw [(learn_len c net _).2]), (learn_len c net _).2, Nat.sub_self, List.getElem?_cons_zero]
    congr 1
    funext i
    have h1 := hp k (by omega)
    have h2 := hp (k + 1) (by omega)
    have h3 : (step c (learn c net (n + 1 + k))).net.pert = (learn c net (n + 1 + (k + 1))).net.pert := rfl
    rw [h3, h1, h2]
    simp [read, perturb]

theorem used_last (c : Cfg K ι A) (net : Net K ι) (n : ℕ) :
    (learn c net (n + 1)).used[n]? = some fun i => read ((c.race n).acting i) ((learn c net n).net.pert i) ((learn c net (n + 1)).net.pert i) := by
  show (step c (learn c net n)).used[n]? = _
  rw [used_step, List.getElem?_append_right (by rw [(learn_len c net _).2]), (learn_len c net _).2, Nat.sub_self, List.getElem?_cons_zero, (learn_len c net _).1]
  rfl

/-- **C146.** The first action of an episode: every entry of the network that chooses it is the entry of the new network or still that of the network of the episode before, since nothing in the graph orders the
two; for the very first action that is the network `perturbed_model` was initialised with, which has nothing to do with the online one. -/
theorem C146_first (c : Cfg K ι A) (net : Net K ι) {n : ℕ} (hb : Begins c net n) :
    ∃ σ, (σ = (learn c net n).net.scale ∨ σ = (learn c net (n + 1)).net.scale) ∧
      ∃ w, (learn c net (n + 1)).used[n]? = some w ∧
        ∀ i, w i = if (c.race n).acting i = true then (if c.flag i = true then c.θ (learn c net n).acts i + σ * (c.draw n).z i else c.θ (learn c net n).acts i) else (learn c net n).net.pert i := by
  have hr := (reset_iff c net n).2 hb
  refine ⟨read (c.race n).scalePert (learn c net n).net.scale (learn c net (n + 1)).net.scale, ?_, ?_⟩
  · unfold read
    split_ifs
    · exact .inr rfl
    · exact .inl rfl
  · refine ⟨_, used_last c net n, fun i => ?_⟩
    show read _ _ ((step c (learn c net n)).net.pert i) = _
    rw [pert_step, hr, if_pos rfl, (learn_len c net n).1]
    rfl

theorem eps_learn (c : Cfg K ι A) (net : Net K ι) (h0 : net.eps = 0) (n : ℕ) : (learn c net n).net.eps = 0 := by
  cases n with
  | zero => exact h0
  | succ n => exact eps_step c _

/-- **C146.** Actions are never random: every action is the greedy one of the network that acts (`eps` begins at 0, and the uniform draw is not negative). -/
theorem C146_greedy (c : Cfg K ι A) (net : Net K ι) (h0 : net.eps = 0) (hu : ∀ n, 0 ≤ (c.draw n).u) (n : ℕ) :
    ∃ w, (learn c net (n + 1)).used[n]? = some w ∧ (learn c net (n + 1)).acts[n]? = some (c.greedy w (learn c net n).acts) := by
  refine ⟨_, used_last c net n, ?_⟩
  show (step c (learn c net n)).acts[n]? = _
  rw [acts_step, List.getElem?_append_right (by rw [(learn_len c net _).1]), (learn_len c net _).1, Nat.sub_self, List.getElem?_cons_zero, if_neg]
  · rfl
  · rw [eps_learn c net h0 n]
    simp only [read, le_refl, ite_self, not_lt]
    exact hu _

/-! ### The size of the noise -/

/-- **C146.** Every call makes the noise larger or smaller by the factor 1.01, so after `n` calls its size is the first one times a power of 1.01; it is never zero and moves at most by `1.01 ^ n`. -/
theorem C146_scale (c : Cfg K ι A) (net : Net K ι) (hs : 0 < net.scale) (n : ℕ) :
    (∃ a b : ℕ, a + b = n ∧ (learn c net n).net.scale = net.scale * (101 / 100) ^ a / (101 / 100) ^ b) ∧ 0 < (learn c net n).net.scale ∧
    (learn c net n).net.scale ≤ net.scale * (101 / 100) ^ n ∧ net.scale / (101 / 100) ^ n ≤ (learn c net n).net.scale := by
  have h1 : (0 : K) < 101 / 100 := by norm_num
  have h2 : (1 : K) ≤ 101 / 100 := by norm_num
  have key : ∃ a b : ℕ, a + b = n ∧ (learn c net n).net.scale = net.scale * (101 / 100) ^ a / (101 / 100) ^ b := by
    induction n with
    | zero => exact ⟨0, 0, rfl, by simp [learn, start]⟩
    | succ n ih =>
      obtain ⟨a, b, e, h⟩ := ih
      rcases scale_step c (learn c net n) with h3 | h3
      · refine ⟨a + 1, b, by omega, ?_⟩
        show (step c (learn c net n)).net.scale = _
        rw [h3, h, pow_succ]
        field_simp
      · refine ⟨a, b + 1, by omega, ?_⟩
        show (step c (learn c net n)).net.scale = _
        rw [h3, h, pow_succ]
        field_simp
  refine ⟨key, ?_⟩
  obtain ⟨a, b, e, h⟩ := key
  have hp : ∀ m : ℕ, (0 : K) < (101 / 100) ^ m := fun m => pow_pos h1 m
  have hq : ∀ m : ℕ, (1 : K) ≤ (101 / 100) ^ m := fun m => one_le_pow₀ h2
  rw [h]
  refine ⟨div_pos (mul_pos hs (hp a)) (hp b), ?_, ?_⟩
  · refine (div_le_self (mul_pos hs (hp a)).le (hq b)).trans ?_
    exact mul_le_mul_of_nonneg_left (pow_le_pow_right₀ h2 (by omega)) hs.le
  · refine (div_le_div_of_nonneg_left hs.le (hp b) (pow_le_pow_right₀ h2 (by omega : b ≤ n))).trans ?_
    exact div_le_div_of_nonneg_right (le_mul_of_one_le_right hs.le (hq a)) (hp b).le

/-- **C146.** The threshold kept after a call is the one computed for it. -/
theorem C146_threshold (c : Cfg K ι A) (net : Net K ι) (n : ℕ) (h : 0 ≤ c.thr (learn c net n).acts) : (learn c net (n + 1)).net.thr = c.thr (learn c net n).acts := by
  show (if 0 ≤ c.thr (learn c net n).acts then _ else _) = _
  rw [if_pos h]

/-- **C146.** The direction: if the divergence is measured after the assignments, the noise grows exactly if the adaptive copy - the online network plus noise of the current size - is closer to the online network than
the new threshold. -/
theorem C146_adapts (c : Cfg K ι A) (net : Net K ι) (hs : 0 < net.scale) (n : ℕ) (ht : 0 ≤ c.thr (learn c net n).acts) (hr : (∀ i, (c.race n).measured i = true) ∧ (c.race n).thr = true) :
    (learn c net n).net.scale < (learn c net (n + 1)).net.scale ↔
      c.kl (learn c net n).acts (c.θ (learn c net n).acts)
        (fun i => if c.flag i = true then c.θ (learn c net n).acts i + (learn c net n).net.scale * (c.draw n).zA i else c.θ (learn c net n).acts i) < c.thr (learn c net n).acts := by
  have hp := (C146_scale c net hs n).2.1
  set s := learn c net n with hsd
  have hl : s.acts.length = n := (learn_len c net n).1
  have e : (learn c net (n + 1)).net.scale = if c.kl s.acts (c.θ s.acts) (perturb c.flag s.net.scale (c.draw n).zA (c.θ s.acts)) < c.thr s.acts then s.net.scale * (101 / 100) else s.net.scale / (101 / 100) := by
    show (if c.kl s.acts (c.θ s.acts) (fun i => read ((c.race s.acts.length).measured i) (s.net.adapt i) (perturb c.flag s.net.scale (c.draw s.acts.length).zA (c.θ s.acts) i)) <
      read (c.race s.acts.length).thr s.net.thr (if 0 ≤ c.thr s.acts then c.thr s.acts else s.net.thr) then _ else _) = _
    rw [hl, if_pos ht, hr.2]
    simp only [hr.1, read, if_true]
    rfl
  rw [e]
  have h1 : s.net.scale < s.net.scale * (101 / 100) := by linarith
  have h2 : s.net.scale / (101 / 100) ≤ s.net.scale := div_le_self hp.le (by norm_num)
  show _ ↔ c.kl s.acts (c.θ s.acts) (perturb c.flag s.net.scale (c.draw n).zA (c.θ s.acts)) < c.thr s.acts
  split_ifs with h
  · exact ⟨fun _ => h, fun _ => h1⟩
  · exact ⟨fun h3 => absurd h3 (not_lt.2 h2), fun h3 => absurd h3 h⟩

/-- **C146 (defect).** A network none of whose variables is called `fully_connected` is never perturbed: from the second action of an episode on, the action is the greedy one of the online network at the beginning of
the episode, whatever noise is drawn, and nothing warns; there is no exploration at all. -/
theorem C146_no_exploration (c : Cfg K ι A) (net : Net K ι) (h0 : net.eps = 0) (hu : ∀ n, 0 ≤ (c.draw n).u) (hf : ∀ i, c.flag i = false) {n : ℕ} (hb : Begins c net n) {k : ℕ}
    (hk : ∀ j, n < j → j ≤ n + k + 1 → ¬ Begins c net j) :
    (learn c net (n + k + 2)).acts[n + k + 1]? = some (c.greedy (c.θ (learn c net n).acts) (learn c net (n + k + 1)).acts) := by
  obtain ⟨σ, -, h⟩ := C146_episode c net hb
  have h1 := h k hk
  obtain ⟨w, h2, h3⟩ := C146_greedy c net h0 hu (n + k + 1)
  have e : n + k + 2 = n + k + 1 + 1 := rfl
  rw [e] at h1 ⊢
  rw [h1] at h2
  cases h2
  rw [h3]
  simp [hf]

/-! ### A run -/

/-- Two weights, of which the first belongs to a dense layer; the online network grows by 1 with every action, episodes have three actions, an action is `true` if the first weight is above the second. -/
def exC : Cfg ℚ (Fin 2) Bool where
  flag := fun i => i == 0
  θ := fun as i => as.length + i.val
  dn := fun as => as.length % 3 == 0
  greedy := fun w _ => decide (w 0 > w 1)
  kl := fun _ a b => |a 0 - b 0|
  thr := fun _ => 1 / 20
  draw := fun n => ⟨fun _ => 200, fun _ => if n = 1 then 10 else 1, 0, true⟩
  race := fun n => ⟨fun _ => decide (n ≠ 0), fun _ => true, false, true, true⟩

def exN : Net ℚ (Fin 2) := ⟨fun _ => 7, fun _ => 0, 1 / 100, 1 / 20, 0⟩

/-- The first action comes from the initial copy, the next two from the network of the beginning plus noise, the fourth from that of the second episode: the online network has trained on, the noise is not the same. -/
example : ((learn exC exN 4).used.map fun w => [w 0, w 1]) = [[7, 7], [2, 1], [2, 1], [3 + 101 / 100 * 2, 4]] ∧ (learn exC exN 4).acts = [false, true, true, true] := by decide +kernel

example : Begins exC exN 0 ∧ Begins exC exN 3 ∧ ¬ Begins exC exN 1 ∧ ¬ Begins exC exN 2 ∧ exN.eps = 0 ∧ 0 < exN.scale := by
  refine ⟨.inl rfl, .inr (by decide +kernel), ?_, ?_, rfl, by norm_num [exN]⟩ <;> rintro (h | h) <;> revert h <;> decide +kernel

/-- The noise grows in the first call and shrinks in the second, whose noise is ten times as far. -/
example : (learn exC exN 1).net.scale = 101 / 10000 ∧ (learn exC exN 2).net.scale = 1 / 100 ∧ (∀ n i, (exC.race n).measured i = true) ∧ ∀ n, (exC.race n).thr = true ∧ 0 ≤ (exC.draw n).u := by
  refine ⟨by decide +kernel, by decide +kernel, fun _ _ => rfl, fun _ => ⟨rfl, le_rfl⟩⟩

/-- Without dense layers: the second and third action are those of the network at the beginning, `0 > 1`. -/
example : (learn { exC with flag := fun _ => false } exN 3).acts = [false, false, false] := by decide +kernel

end Neorl.ParamNoise
