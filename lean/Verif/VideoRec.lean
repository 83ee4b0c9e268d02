import Mathlib.Data.List.Basic
import Mathlib.Data.List.Range
import Mathlib.Tactic.Ring

/-!
# The video recorder

Model of `VecVideoRecorder` (`neorl/rl/baselines/shared/vec_env/vec_video_recorder.py`).  A picture is represented by the value of `step_id` when it is taken; writing the file
(library `gym`) and the environment itself are left out.  `record_video_trigger` is an arbitrary function of `step_id`.
-/

set_option linter.unusedSectionVars false
set_option linter.unusedVariables false

namespace Neorl.VideoRec

/-- A video: the two numbers in its file name (lines 68-69) and the pictures in it. -/
structure Video where
  frm : ℕ
  til : ℕ
  shots : List ℕ
  deriving DecidableEq, Repr

/-- The fields of the recorder, lines 50-59, and the files written so far. -/
structure St where
  stepId : ℕ
  recording : Bool
  frames : ℕ
  cur : Video
  files : List Video
  deriving DecidableEq, Repr

/-- `__init__`, lines 47-59. -/
def init : St := { stepId := 0, recording := false, frames := 0, cur := ⟨0, 0, []⟩, files := [] }

/-- `close_video_recorder`, lines 102-106. -/
def close (s : St) : St :=
  { s with files := if s.recording then s.files ++ [s.cur] else s.files, recording := false, frames := 1 }

/-- `start_video_recorder`, lines 66-80: `L` is `video_length`. -/
def start (L : ℕ) (s : St) : St :=
  let s := close s
  { s with cur := ⟨s.stepId, s.stepId + L, [s.stepId]⟩, frames := 1, recording := true }

/-- `step_wait`, lines 85-100. -/
def step (L : ℕ) (trig : ℕ → Bool) (s : St) : St :=
  let s := { s with stepId := s.stepId + 1 }
  if s.recording then
    let s := { s with cur := { s.cur with shots := s.cur.shots ++ [s.stepId] }, frames := s.frames + 1 }
    if s.frames > L then close s else s
  else if trig s.stepId then start L s
  else s

/-- What the user calls. -/
inductive Ev
  | reset
  | step
  deriving DecidableEq, Repr

/-- `reset` (lines 61-64) and `step_wait`. -/
def app (L : ℕ) (trig : ℕ → Bool) (s : St) : Ev → St
  | .reset => start L s
  | .step => step L trig s

/-- A sequence of calls. -/
def exec (L : ℕ) (trig : ℕ → Bool) (es : List Ev) (s : St) : St := es.foldl (app L trig) s

/-- All videos begun: the files and the one being recorded. -/
def St.videos (s : St) : List Video := s.files ++ if s.recording then [s.cur] else []

/-- What holds after any calls. -/
structure Inv (L : ℕ) (trig : ℕ → Bool) (s : St) : Prop where
  cur : s.recording = true → 1 ≤ s.frames ∧ s.frames ≤ max L 1 ∧ s.stepId + 1 = s.cur.frm + s.frames ∧ s.cur.til = s.cur.frm + L ∧ s.cur.shots = List.range' s.cur.frm s.frames
  files : ∀ v ∈ s.files, v.til = v.frm + L ∧ ∃ n, 1 ≤ n ∧ n ≤ max L 1 + 1 ∧ v.shots = List.range' v.frm n
  past : ∀ v ∈ s.videos, ∀ k ∈ v.shots, k ≤ s.stepId
  order : s.videos.Pairwise fun v w => ∀ a ∈ v.shots, ∀ b ∈ w.shots, a ≤ b
  hit : ∀ k, 1 ≤ k → k ≤ s.stepId → trig k = true → ∃ v ∈ s.videos, k ∈ v.shots

theorem inv_init (L : ℕ) (trig : ℕ → Bool) : Inv L trig init := by
  refine ⟨by simp [init], by simp [init], by simp [init, St.videos], by simp [init, St.videos], ?_⟩
  intro k h1 h2
  simp only [init] at h2
  omega

theorem videos_close (s : St) : (close s).videos = s.videos := by
  unfold close St.videos
  cases s.recording <;> simp

theorem files_close (s : St) : (close s).files = s.videos := by
  unfold close St.videos
  cases s.recording <;> simp

theorem inv_close {L : ℕ} {trig : ℕ → Bool} {s : St} (h : Inv L trig s) : Inv L trig (close s) := by
  obtain ⟨h1, h2, h3, h4, h5⟩ := h
  refine ⟨by simp [close], ?_, ?_, ?_, ?_⟩
  · intro v hv
    unfold close at hv
    cases hr : s.recording with
    | false => simp only [hr, Bool.false_eq_true, if_false] at hv; exact h2 v hv
    | true =>
      simp only [hr, if_true, List.mem_append, List.mem_singleton] at hv
      rcases hv with hv | rfl
      · exact h2 v hv
      · obtain ⟨a, b, c, d, e⟩ := h1 hr
        exact ⟨d, s.frames, a, by omega, e⟩
  · rw [videos_close]; exact h3
  · rw [videos_close]; exact h4
  · rw [videos_close]; exact h5

theorem inv_start {L : ℕ} {trig : ℕ → Bool} {s : St} (h : Inv L trig s) : Inv L trig (start L s) := by
  have hc := inv_close h
  have hv : (start L s).videos = s.videos ++ [⟨s.stepId, s.stepId + L, [s.stepId]⟩] := by
    show (close s).files ++ _ = _
    rw [files_close]
    rfl
  refine ⟨?_, ?_, ?_, ?_, ?_⟩
  · intro _
    refine ⟨le_refl 1, by show 1 ≤ _; omega, rfl, rfl, rfl⟩
  · exact hc.files
  · intro v hm k hk
    show k ≤ s.stepId
    rw [hv] at hm
    rcases List.mem_append.1 hm with hm | hm
    · exact h.past v hm k hk
    · simp only [List.mem_singleton] at hm
      subst hm
      simp only [List.mem_singleton] at hk
      omega
  · rw [hv, List.pairwise_append]
    refine ⟨h.order, by simp, ?_⟩
    intro v hm w hw a ha b hb
    simp only [List.mem_singleton] at hw
    subst hw
    simp only [List.mem_singleton] at hb
    subst hb
    exact h.past v hm a ha
  · intro k h1 h2 ht
    obtain ⟨v, e1, e2⟩ := h.hit k h1 h2 ht
    exact ⟨v, by rw [hv]; simp [e1], e2⟩

/-- The clock moves without a picture. -/
theorem inv_tick {L : ℕ} {trig : ℕ → Bool} {s : St} (h : Inv L trig s) (hr : s.recording = false) (ht : trig (s.stepId + 1) = false) :
    Inv L trig { s with stepId := s.stepId + 1 } := by
  refine ⟨by simp [hr], h.files, ?_, h.order, ?_⟩
  · intro v hv k hk
    have := h.past v hv k hk
    show k ≤ s.stepId + 1
    omega
  · intro k h1 h2 h3
    by_cases hk : k = s.stepId + 1
    · subst hk; rw [ht] at h3; cases h3
    · have h2' : k ≤ s.stepId + 1 := h2
      exact h.hit k h1 (by omega) h3

theorem step_idle {L : ℕ} {trig : ℕ → Bool} {s : St} (hr : s.recording = false) :
    step L trig s = if trig (s.stepId + 1) then start L { s with stepId := s.stepId + 1 } else { s with stepId := s.stepId + 1 } := by
  simp [step, hr]

/-- The state after a picture, before the length is checked. -/
def shoot (s : St) : St := { s with stepId := s.stepId + 1, cur := { s.cur with shots := s.cur.shots ++ [s.stepId + 1] }, frames := s.frames + 1 }

theorem step_busy {L : ℕ} {trig : ℕ → Bool} {s : St} (hr : s.recording = true) :
    step L trig s = if s.frames + 1 > L then close (shoot s) else shoot s := by
  simp only [step, hr, if_true, shoot]

theorem videos_shoot {s : St} (hr : s.recording = true) : (shoot s).videos = s.files ++ [{ s.cur with shots := s.cur.shots ++ [s.stepId + 1] }] := by
  simp [St.videos, shoot, hr]

theorem shots_shoot {L : ℕ} {trig : ℕ → Bool} {s : St} (h : Inv L trig s) (hr : s.recording = true) : s.cur.shots ++ [s.stepId + 1] = List.range' s.cur.frm (s.frames + 1) := by
  obtain ⟨a, b, c, d, e⟩ := h.cur hr
  rw [e, c, List.range'_concat]
  simp

theorem inv_step {L : ℕ} {trig : ℕ → Bool} {s : St} (h : Inv L trig s) : Inv L trig (step L trig s) := by
  cases hr : s.recording with
  | false =>
    rw [step_idle hr]
    cases ht : trig (s.stepId + 1) with
    | false => simpa using inv_tick h hr ht
    | true =>
      simp only [if_true]
      set s1 : St := { s with stepId := s.stepId + 1 } with hs1
      -- the clock has moved, the picture of this step is taken by `start`
      have hv : (start L s1).videos = s.videos ++ [⟨s.stepId + 1, s.stepId + 1 + L, [s.stepId + 1]⟩] := by
        show (close s1).files ++ _ = _
        rw [files_close]
        rfl
      have hf : (start L s1).files = s.files := by
        show (close s1).files = _
        simp [close, hs1, hr]
      refine ⟨fun _ => ⟨le_refl 1, by show 1 ≤ _; omega, rfl, rfl, rfl⟩, by rw [hf]; exact h.files, ?_, ?_, ?_⟩
      · intro v hm k hk
        show k ≤ s.stepId + 1
        rw [hv] at hm
        rcases List.mem_append.1 hm with hm | hm
        · have := h.past v hm k hk; omega
        · simp only [List.mem_singleton] at hm
          subst hm
          simp only [List.mem_singleton] at hk
          omega
      · rw [hv, List.pairwise_append]
        refine ⟨h.order, by simp, ?_⟩
        intro v hm w hw a ha b hb
        simp only [List.mem_singleton] at hw
        subst hw
        simp only [List.mem_singleton] at hb
        subst hb
        have := h.past v hm a ha
        omega
      · intro k h1 h2 h3
        have h2' : k ≤ s.stepId + 1 := h2
        rw [hv]
        by_cases hk : k = s.stepId + 1
        · exact ⟨_, List.mem_append.2 (.inr (List.mem_singleton.2 rfl)), by simp [hk]⟩
        · obtain ⟨v, e1, e2⟩ := h.hit k h1 (by omega) h3
          exact ⟨v, List.mem_append.2 (.inl e1), e2⟩
  | true =>
    rw [step_busy hr]
    have hc := h.cur hr
    obtain ⟨a, b, c, d, e⟩ := hc
    have hsh := shots_shoot h hr
    have hvs : s.videos = s.files ++ [s.cur] := by simp [St.videos, hr]
    have hpast : ∀ v ∈ (shoot s).videos, ∀ k ∈ v.shots, k ≤ s.stepId + 1 := by
      intro v hv k hk
      rw [videos_shoot hr] at hv
      rcases List.mem_append.1 hv with hv | hv
      · have := h.past v (by rw [hvs]; simp [hv]) k hk; omega
      · simp only [List.mem_singleton] at hv
        subst hv
        rcases List.mem_append.1 hk with hk | hk
        · have := h.past s.cur (by rw [hvs]; simp) k hk; omega
        · simp only [List.mem_singleton] at hk; omega
    have horder : (shoot s).videos.Pairwise fun v w => ∀ a ∈ v.shots, ∀ b ∈ w.shots, a ≤ b := by
      have ho := h.order
      rw [hvs, List.pairwise_append] at ho
      rw [videos_shoot hr, List.pairwise_append]
      refine ⟨ho.1, by simp, ?_⟩
      intro v hv w hw x hx y hy
      simp only [List.mem_singleton] at hw
      subst hw
      rcases List.mem_append.1 hy with hy | hy
      · exact ho.2.2 v hv s.cur (by simp) x hx y hy
      · simp only [List.mem_singleton] at hy
        have := h.past v (by rw [hvs]; simp [hv]) x hx
        omega
    have hhit : ∀ k, 1 ≤ k → k ≤ s.stepId + 1 → trig k = true → ∃ v ∈ (shoot s).videos, k ∈ v.shots := by
      intro k h1 h2 h3
      rw [videos_shoot hr]
      by_cases hk : k = s.stepId + 1
      · exact ⟨_, List.mem_append.2 (.inr (List.mem_singleton.2 rfl)), by simp [hk]⟩
      · obtain ⟨v, e1, e2⟩ := h.hit k h1 (by omega) h3
        rw [hvs] at e1
        rcases List.mem_append.1 e1 with e1 | e1
        · exact ⟨v, List.mem_append.2 (.inl e1), e2⟩
        · simp only [List.mem_singleton] at e1
          subst e1
          exact ⟨_, List.mem_append.2 (.inr (List.mem_singleton.2 rfl)), by simp [e2]⟩
    split_ifs with hL
    · refine ⟨by simp [close], ?_, ?_, ?_, ?_⟩
      · intro v hv
        rw [files_close, videos_shoot hr] at hv
        rcases List.mem_append.1 hv with hv | hv
        · exact h.files v hv
        · simp only [List.mem_singleton] at hv
          subst hv
          exact ⟨d, s.frames + 1, by omega, by omega, hsh⟩
      · rw [videos_close]; exact hpast
      · rw [videos_close]; exact horder
      · rw [videos_close]; exact hhit
    · refine ⟨fun _ => ?_, h.files, hpast, horder, hhit⟩
      refine ⟨by show 1 ≤ s.frames + 1; omega, by show s.frames + 1 ≤ _; omega, ?_, d, hsh⟩
      show s.stepId + 1 + 1 = s.cur.frm + (s.frames + 1)
      omega

theorem inv_exec (L : ℕ) (trig : ℕ → Bool) (es : List Ev) {s : St} (h : Inv L trig s) : Inv L trig (exec L trig es s) := by
  induction es generalizing s with
  | nil => exact h
  | cons e es ih =>
    refine ih ?_
    cases e with
    | reset => exact inv_start h
    | step => exact inv_step h

end Neorl.VideoRec
