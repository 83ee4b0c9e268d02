import Verif.VideoRec

/-!
# C145: which steps are filmed
-/

set_option linter.unusedSectionVars false
set_option linter.unusedVariables false

namespace Neorl.VideoRec

/-- **C145.** After any calls every file shows consecutive steps beginning with the first number in its name, the second number is `video_length` later, and there is at least one and at most
`video_length + 1` pictures (two for length 0). -/
theorem C145_files (L : ℕ) (trig : ℕ → Bool) (es : List Ev) : ∀ v ∈ (exec L trig es init).files,
    v.til = v.frm + L ∧ ∃ n, 1 ≤ n ∧ n ≤ max L 1 + 1 ∧ v.shots = List.range' v.frm n :=
  (inv_exec L trig es (inv_init L trig)).files

/-- **C145.** Every step at which the trigger is true is shown in a video, finished or not. -/
theorem C145_covered (L : ℕ) (trig : ℕ → Bool) (es : List Ev) (k : ℕ) (h1 : 1 ≤ k) (h2 : k ≤ (exec L trig es init).stepId) (ht : trig k = true) :
    ∃ v ∈ (exec L trig es init).videos, k ∈ v.shots :=
  (inv_exec L trig es (inv_init L trig)).hit k h1 h2 ht

/-- **C145.** Videos follow each other in time. -/
theorem C145_order (L : ℕ) (trig : ℕ → Bool) (es : List Ev) : (exec L trig es init).videos.Pairwise fun v w => ∀ a ∈ v.shots, ∀ b ∈ w.shots, a ≤ b :=
  (inv_exec L trig es (inv_init L trig)).order

/-- **C145.** Closing the environments keeps every video that was begun, and nothing is recorded afterwards. -/
theorem C145_close (L : ℕ) (trig : ℕ → Bool) (es : List Ev) : (close (exec L trig es init)).files = (exec L trig es init).videos ∧ (close (exec L trig es init)).recording = false :=
  ⟨files_close _, rfl⟩

theorem full_steps {L : ℕ} {trig : ℕ → Bool} (n : ℕ) {s : St} (hi : Inv L trig s) (hf : ∀ v ∈ s.files, v.shots = List.range' v.frm (max L 1 + 1))
    (ho : s.videos.Pairwise fun v w => ∀ a ∈ v.shots, ∀ b ∈ w.shots, a < b) :
    (∀ v ∈ (exec L trig (List.replicate n .step) s).files, v.shots = List.range' v.frm (max L 1 + 1)) ∧
    (exec L trig (List.replicate n .step) s).videos.Pairwise fun v w => ∀ a ∈ v.shots, ∀ b ∈ w.shots, a < b := by
  induction n generalizing s with
  | zero => exact ⟨hf, ho⟩
  | succ n ih =>
    refine ih (inv_step hi) ?_ ?_
    · intro v hv
      change v ∈ (step L trig s).files at hv
      cases hr : s.recording with
      | false =>
        rw [step_idle hr] at hv
        split_ifs at hv
        · refine hf v ?_
          have : (start L { s with stepId := s.stepId + 1 }).files = s.files := by
            show (close { s with stepId := s.stepId + 1 }).files = _
            simp [close, hr]
          rwa [this] at hv
        · exact hf v hv
      | true =>
        obtain ⟨a, b, c, d, e⟩ := hi.cur hr
        rw [step_busy hr] at hv
        split_ifs at hv with hL
        · rw [files_close, videos_shoot hr] at hv
          rcases List.mem_append.1 hv with hv | hv
          · exact hf v hv
          · simp only [List.mem_singleton] at hv
            subst hv
            show s.cur.shots ++ [s.stepId + 1] = _
            rw [shots_shoot hi hr, show s.frames + 1 = max L 1 + 1 by omega]
        · exact hf v hv
    · show (step L trig s).videos.Pairwise _
      cases hr : s.recording with
      | false =>
        rw [step_idle hr]
        split_ifs with ht
        · have hv : (start L { s with stepId := s.stepId + 1 }).videos = s.videos ++ [⟨s.stepId + 1, s.stepId + 1 + L, [s.stepId + 1]⟩] := by
            show (close { s with stepId := s.stepId + 1 }).files ++ _ = _
            rw [files_close]
            rfl
          rw [hv, List.pairwise_append]
          refine ⟨ho, by simp, ?_⟩
          intro v hm w hw a ha b hb
          simp only [List.mem_singleton] at hw
          subst hw
          simp only [List.mem_singleton] at hb
          subst hb
          have := hi.past v hm a ha
          omega
        · exact ho
      | true =>
        have hvs : s.videos = s.files ++ [s.cur] := by simp [St.videos, hr]
        have key : (shoot s).videos.Pairwise fun v w => ∀ a ∈ v.shots, ∀ b ∈ w.shots, a < b := by
          rw [hvs, List.pairwise_append] at ho
          rw [videos_shoot hr, List.pairwise_append]
          refine ⟨ho.1, by simp, ?_⟩
          intro v hv w hw x hx y hy
          simp only [List.mem_singleton] at hw
          subst hw
          rcases List.mem_append.1 hy with hy | hy
          · exact ho.2.2 v hv s.cur (by simp) x hx y hy
          · simp only [List.mem_singleton] at hy
            have := hi.past v (by rw [hvs]; simp [hv]) x hx
            omega
        rw [step_busy hr]
        split_ifs with hL
        · rw [videos_close]; exact key
        · exact key

/-- **C145.** When `reset` is called once, at the beginning, every file is complete: `video_length + 1` pictures, the last one of the step in the name (two pictures for length 0). -/
theorem C145_complete {L : ℕ} (hL : 1 ≤ L) (trig : ℕ → Bool) (n : ℕ) : ∀ v ∈ (exec L trig (.reset :: List.replicate n .step) init).files,
    v.shots = List.range' v.frm (L + 1) ∧ v.shots.getLast? = some v.til := by
  intro v hv
  have hi := inv_start (inv_init L trig)
  have hf := (full_steps n hi (by simp [start, close, init]) (by simp [start, close, init, St.videos])).1 v hv
  have ht := (C145_files L trig _ v hv).1
  rw [show max L 1 = L by omega] at hf
  refine ⟨hf, ?_⟩
  rw [hf, ht, List.range'_concat]
  simp

/-- **C145.** Then no step is shown twice. -/
theorem C145_no_overlap (L : ℕ) (trig : ℕ → Bool) (n : ℕ) : (exec L trig (.reset :: List.replicate n .step) init).videos.Pairwise fun v w => ∀ a ∈ v.shots, ∀ b ∈ w.shots, a < b :=
  (full_steps n (inv_start (inv_init L trig)) (by simp [start, close, init]) (by simp [start, close, init, St.videos])).2

/-- **C145, defect.** For `video_length = 0` a video has two pictures, although its name says one. -/
theorem C145_zero_length (trig : ℕ → Bool) (n : ℕ) : ∀ v ∈ (exec 0 trig (.reset :: List.replicate n .step) init).files, v.til = v.frm ∧ v.shots = [v.frm, v.frm + 1] := by
  intro v hv
  have hf := (full_steps n (inv_start (inv_init 0 trig)) (by simp [start, close, init]) (by simp [start, close, init, St.videos])).1 v hv
  exact ⟨by simpa using (C145_files 0 trig _ v hv).1, by rw [hf]; rfl⟩

/-- **C145, defect.** `reset` starts a video whatever the trigger says, and a video being recorded is cut: it is written with a name that promises `video_length` steps. -/
theorem C145_reset_cuts (L : ℕ) (trig : ℕ → Bool) (s : St) : (app L trig s .reset).recording = true ∧ (s.recording = true → (app L trig s .reset).files = s.files ++ [s.cur]) := by
  refine ⟨rfl, fun h => ?_⟩
  show (close s).files = _
  simp [close, h]

/-- **C145, defect.** Two resets without a step in between give two videos of the same name, the second is written over the first. -/
theorem C145_same_name (L : ℕ) (trig : ℕ → Bool) (s : St) : ∃ v ∈ (exec L trig [.reset, .reset] s).files,
    v.frm = (exec L trig [.reset, .reset] s).cur.frm ∧ v.til = (exec L trig [.reset, .reset] s).cur.til :=
  ⟨⟨s.stepId, s.stepId + L, [s.stepId]⟩, by simp [exec, app, start, close], rfl, rfl⟩

/-- Recording since step `a`, `j` steps later. -/
def mid (L a j : ℕ) (F : List Video) : St := ⟨a + j, true, j + 1, ⟨a, a + L, List.range' a (j + 1)⟩, F⟩

theorem mid_steps {L a : ℕ} (trig : ℕ → Bool) (F : List Video) : ∀ n j : ℕ, j + n + 1 ≤ L → exec L trig (List.replicate n .step) (mid L a j F) = mid L a (j + n) F
  | 0, j, h => rfl
  | n + 1, j, h => by
    have h1 : step L trig (mid L a j F) = mid L a (j + 1) F := by
      rw [step_busy rfl, if_neg (by show ¬ j + 1 + 1 > L; omega)]
      simp only [shoot, mid, St.mk.injEq, Video.mk.injEq, true_and, and_true]
      rw [List.range'_concat (n := j + 1)]
      simp [Nat.add_assoc]
    show exec L trig (List.replicate n .step) (step L trig (mid L a j F)) = _
    rw [h1, mid_steps trig F n (j + 1) (by omega), show j + 1 + n = j + (n + 1) by omega]

theorem idle_steps {L : ℕ} (trig : ℕ → Bool) : ∀ (n : ℕ) (s : St), s.recording = false → (∀ k, s.stepId < k → k ≤ s.stepId + n → trig k = false) →
    exec L trig (List.replicate n .step) s = { s with stepId := s.stepId + n }
  | 0, s, _, _ => rfl
  | n + 1, s, hr, ht => by
    show exec L trig (List.replicate n .step) (step L trig s) = _
    rw [step_idle hr, ht (s.stepId + 1) (by omega) (by omega)]
    simp only [Bool.false_eq_true, if_false]
    rw [idle_steps trig n { s with stepId := s.stepId + 1 } hr (fun k h1 h2 => ht k (by have : s.stepId + 1 < k := h1; omega) (by have : k ≤ s.stepId + 1 + n := h2; omega))]
    simp only [St.mk.injEq, and_true]
    omega

theorem exec_append (L : ℕ) (trig : ℕ → Bool) (es fs : List Ev) (s : St) : exec L trig (es ++ fs) s = exec L trig fs (exec L trig es s) := by simp [exec]

/-- One period: a complete video, then a pause until the next trigger. -/
theorem period {L a : ℕ} (hL : 1 ≤ L) (trig : ℕ → Bool) (F : List Video) (p : ℕ) (hp : ∀ k, a + L < k → k < a + L + (p + 1) → trig k = false) (ht : trig (a + L + (p + 1)) = true) :
    exec L trig (List.replicate (L + (p + 1)) .step) (mid L a 0 F) = mid L (a + L + (p + 1)) 0 (F ++ [⟨a, a + L, List.range' a (L + 1)⟩]) := by
  obtain ⟨l, rfl⟩ : ∃ l, L = l + 1 := ⟨L - 1, by omega⟩
  rw [show l + 1 + (p + 1) = l + (1 + (p + 1)) by omega, List.replicate_add, exec_append, mid_steps trig F l 0 (by omega), List.replicate_add, exec_append]
  have h1 : exec (l + 1) trig (List.replicate 1 .step) (mid (l + 1) a (0 + l) F) =
      ⟨a + (l + 1), false, 1, ⟨a, a + (l + 1), List.range' a (l + 1 + 1)⟩, F ++ [⟨a, a + (l + 1), List.range' a (l + 1 + 1)⟩]⟩ := by
    show step (l + 1) trig (mid (l + 1) a (0 + l) F) = _
    have e : (mid (l + 1) a (0 + l) F).cur.shots ++ [(mid (l + 1) a (0 + l) F).stepId + 1] = List.range' a (l + 1 + 1) := by
      show List.range' a (0 + l + 1) ++ [a + (0 + l) + 1] = _
      rw [List.range'_concat (n := l + 1)]
      simp [Nat.add_assoc]
    rw [step_busy rfl, if_pos (by show 0 + l + 1 + 1 > l + 1; omega)]
    simp only [close, shoot, e]
    simp [mid, Nat.add_assoc]
  rw [h1, List.replicate_add, exec_append, idle_steps trig p _ rfl (fun k h1 h2 => hp k h1 (by have : k ≤ a + (l + 1) + p := h2; omega))]
  show step (l + 1) trig ⟨a + (l + 1) + p, false, 1, ⟨a, a + (l + 1), List.range' a (l + 1 + 1)⟩, F ++ [⟨a, a + (l + 1), List.range' a (l + 1 + 1)⟩]⟩ = _
  rw [step_idle rfl]
  have : trig (a + (l + 1) + p + 1) = true := by rw [show a + (l + 1) + p + 1 = a + (l + 1) + (p + 1) by omega]; exact ht
  simp only [this, if_true]
  simp [start, close, mid, Nat.add_assoc]

/-- **C145, defect.** With the trigger "every `video_length` steps" only every second video is made: the trigger is not asked at the step at which a video ends. -/
theorem C145_every_other {L : ℕ} (hL : 1 ≤ L) (q : ℕ) : (exec L (fun k => k % L == 0) (.reset :: List.replicate (2 * L * q) .step) init).videos.map Video.frm = (List.range (q + 1)).map fun i => 2 * L * i := by
  have key : ∀ q, ∃ F : List Video, exec L (fun k => k % L == 0) (.reset :: List.replicate (2 * L * q) .step) init = mid L (2 * L * q) 0 F ∧ F.map Video.frm = (List.range q).map fun i => 2 * L * i := by
    intro q
    induction q with
    | zero => exact ⟨[], by simp [exec, app, start, close, init, mid], rfl⟩
    | succ q ih =>
      obtain ⟨F, h1, h2⟩ := ih
      refine ⟨F ++ [⟨2 * L * q, 2 * L * q + L, List.range' (2 * L * q) (L + 1)⟩], ?_, by simp [h2, List.range_succ]⟩
      have hs : (2 * L * (q + 1)) = 2 * L * q + (L + (L - 1 + 1)) := by rw [show L - 1 + 1 = L by omega]; ring
      have hz : (2 * L * q) % L = 0 := by rw [show 2 * L * q = L * (2 * q) by ring]; exact Nat.mul_mod_right _ _
      rw [hs, List.replicate_add, ← List.cons_append, exec_append, h1]
      rw [period hL (fun k => k % L == 0) F (L - 1) ?_ ?_]
      · rw [Nat.add_assoc (2 * L * q) L]
      · intro k h3 h4
        obtain ⟨j, rfl⟩ : ∃ j, k = 2 * L * q + L + j := ⟨k - (2 * L * q + L), by omega⟩
        have : (2 * L * q + L + j) % L = j := by
          rw [show 2 * L * q + L + j = j + L * (2 * q + 1) by ring, Nat.add_mul_mod_self_left, Nat.mod_eq_of_lt (by omega)]
        simp only [this]
        simp
        omega
      · have : (2 * L * q + L + (L - 1 + 1)) % L = 0 := by
          rw [show L - 1 + 1 = L by omega, show 2 * L * q + L + L = L * (2 * q + 2) by ring]; exact Nat.mul_mod_right _ _
        simp [this]
  obtain ⟨F, h1, h2⟩ := key q
  rw [h1]
  simp [St.videos, mid, h2, List.range_succ]

/-! ### Non-vacuity -/

/-- A video of three steps begun by `reset`, one begun by the trigger at step 5, one cut by a second `reset`. -/
example : ((exec 3 (fun k => k == 5) [.reset, .step, .step, .step, .step, .step, .step, .reset, .step] init).videos.map fun v => (v.frm, v.til, v.shots)) =
    [(0, 3, [0, 1, 2, 3]), (5, 8, [5, 6]), (6, 9, [6, 7])] := by decide

/-- The trigger at step 3 is true when the first video ends: no video from step 3 on. -/
example : ((exec 3 (fun k => k % 3 == 0) (.reset :: List.replicate 6 .step) init).videos.map fun v => (v.frm, v.shots)) = [(0, [0, 1, 2, 3]), (6, [6])] := by decide

example : (exec 0 (fun k => k == 4) (.reset :: List.replicate 6 .step) init).files = [⟨0, 0, [0, 1]⟩, ⟨4, 4, [4, 5]⟩] := by decide

end Neorl.VideoRec
