import Verif.LogConf
import Verif.Props.AEOStart

/-!
# Property theorems C153: which logger is current, and where it writes
-/

set_option linter.unusedSectionVars false
set_option linter.unusedVariables false

namespace Neorl.LogConf

/-- Nothing but existing loggers is current or closed, the current logger is open, the default logger is never closed. -/
structure Good (s : St) : Prop where
  lt : s.current < s.next
  open_ : s.current ∉ s.closed
  closed_lt : ∀ i ∈ s.closed, i < s.next
  default : 0 ∉ s.closed
  pos : 0 < s.next
  files : s.files.length = s.next

theorem good_start : Good St.start := ⟨by decide, by simp [St.start], by simp [St.start], by simp [St.start], by decide, rfl⟩

/-- What an execution leaves alone: loggers made before, apart from the current one, are closed afterwards exactly if they were; their files and what has been
written stay. -/
structure Keeps (s t : St) : Prop where
  next : s.next ≤ t.next
  closed : ∀ i, i < s.next → i ≠ s.current → (i ∈ t.closed ↔ i ∈ s.closed)
  mono : ∀ i ∈ s.closed, i ∈ t.closed
  files : s.files <+: t.files
  opened : s.opened <+: t.opened
  written : s.written <+: t.written
  cur : t.current = s.current ∨ t.current = 0 ∨ s.next ≤ t.current

theorem configure_none {e : Env} {a : Args} {s t : St} (h : configure e a s = (t, none)) :
    (makeAll (formats e a).2).2 = true ∧
    t = { s with opened := s.opened ++ paths (folder e a) (formats e a).1 (makeAll (formats e a).2).1, current := s.next, next := s.next + 1,
                 files := s.files ++ [paths (folder e a) (formats e a).1 (makeAll (formats e a).2).1] } := by
  unfold configure at h
  dsimp only at h
  split_ifs at h with h1
  · exact ⟨h1, (congrArg Prod.fst h).symm⟩
  · cases h

theorem configure_some {e : Env} {a : Args} {s t : St} {x : PyErr} (h : configure e a s = (t, some x)) :
    (makeAll (formats e a).2).2 = false ∧ x = .valueError ∧
    t = { s with opened := s.opened ++ paths (folder e a) (formats e a).1 (makeAll (formats e a).2).1 } := by
  unfold configure at h
  dsimp only at h
  split_ifs at h with h1
  · cases h
  · exact ⟨by simpa using h1, by cases h; rfl, (congrArg Prod.fst h).symm⟩

theorem configure_good {e : Env} {a : Args} {s : St} (hs : Good s) : Good (configure e a s).1 ∧ Keeps s (configure e a s).1 := by
  rcases hc : configure e a s with ⟨t, _ | x⟩
  · obtain ⟨-, rfl⟩ := configure_none hc
    exact ⟨⟨Nat.lt_succ_self _, fun h => absurd (hs.closed_lt _ h) (lt_irrefl _), fun i hi => (hs.closed_lt i hi).trans (Nat.lt_succ_self _), hs.default,
      Nat.succ_pos _, by simp [hs.files]⟩,
      ⟨Nat.le_succ _, fun i _ _ => Iff.rfl, fun i hi => hi, List.prefix_append _ _, List.prefix_append _ _, List.prefix_refl _, .inr (.inr le_rfl)⟩⟩
  · obtain ⟨-, -, rfl⟩ := configure_some hc
    exact ⟨⟨hs.lt, hs.open_, hs.closed_lt, hs.default, hs.pos, hs.files⟩,
      ⟨le_rfl, fun i _ _ => Iff.rfl, fun i hi => hi, List.prefix_refl _, List.prefix_append _ _, List.prefix_refl _, .inl rfl⟩⟩

theorem close_mem {s : St} {i : ℕ} (h : i ≠ s.current) : i ∈ s.close.closed ↔ i ∈ s.closed := by
  unfold St.close
  split_ifs with h0
  · rfl
  · simp [h]

theorem close_rest (s : St) : s.close.next = s.next ∧ s.close.files = s.files ∧ s.close.opened = s.opened ∧ s.close.written = s.written ∧
    s.close.current = s.current ∧ (∀ i ∈ s.closed, i ∈ s.close.closed) ∧ (s.current ≠ 0 → s.current ∈ s.close.closed) ∧ (0 ∉ s.closed → 0 ∉ s.close.closed) ∧
    ∀ i ∈ s.close.closed, i ∈ s.closed ∨ i = s.current := by
  unfold St.close
  split_ifs with h0
  · exact ⟨rfl, rfl, rfl, rfl, rfl, fun i h => h, fun h => absurd h0 h, fun h => h, fun i h => .inl h⟩
  · refine ⟨rfl, rfl, rfl, rfl, rfl, fun i h => List.mem_cons_of_mem _ h, fun _ => List.mem_cons_self, fun h h' => ?_, fun i h => ?_⟩
    · rcases List.mem_cons.1 h' with h' | h'
      · exact h0 h'.symm
      · exact h h'
    · exact (List.mem_cons.1 h).symm

theorem Keeps.refl (s : St) : Keeps s s :=
  ⟨le_rfl, fun _ _ _ => Iff.rfl, fun _ h => h, List.prefix_refl _, List.prefix_refl _, List.prefix_refl _, .inl rfl⟩

theorem Keeps.trans {s t u : St} (hs : Good s) (ht : Good t) (h1 : Keeps s t) (h2 : Keeps t u) (h0 : 0 ∉ u.closed) : Keeps s u where
  next := h1.next.trans h2.next
  closed i hi hc := by
    rw [← h1.closed i hi hc]
    by_cases h : i = t.current
    · rcases h1.cur with h' | h' | h'
      · exact absurd (h.trans h') hc
      · rw [h, h']; exact ⟨fun x => absurd x h0, fun x => absurd x ht.default⟩
      · omega
    · exact h2.closed i (hi.trans_le h1.next) h
  mono i hi := h2.mono i (h1.mono i hi)
  files := h1.files.trans h2.files
  opened := h1.opened.trans h2.opened
  written := h1.written.trans h2.written
  cur := by
    rcases h2.cur with h | h | h
    · rw [h]; exact h1.cur
    · exact .inr (.inl h)
    · exact .inr (.inr (h1.next.trans h))

theorem exec_good (e : Env) : ∀ (p : Prog) (s : St), Good s → Good (exec e p s).1 ∧ Keeps s (exec e p s).1
  | .skip, s, hs => ⟨hs, Keeps.refl s⟩
  | .seq p q, s, hs => by
    obtain ⟨g1, k1⟩ := exec_good e p s hs
    unfold exec
    rcases hp : exec e p s with ⟨t, _ | x⟩
    · rw [hp] at g1 k1
      obtain ⟨g2, k2⟩ := exec_good e q t g1
      exact ⟨g2, k1.trans hs g1 k2 g2.default⟩
    · rw [hp] at g1 k1
      exact ⟨g1, k1⟩
  | .configure a, s, hs => configure_good hs
  | .reset, s, hs => by
    obtain ⟨c1, c2, c3, c4, c5, c6, c7, c8, c9⟩ := close_rest s
    show Good (reset s) ∧ Keeps s (reset s)
    unfold reset
    split_ifs with h0
    · exact ⟨hs, Keeps.refl s⟩
    · refine ⟨⟨?_, c8 hs.default, fun i hi => ?_, c8 hs.default, ?_, ?_⟩, ⟨?_, fun i _ hc => close_mem hc, c6, ?_, ?_, ?_, .inr (.inl rfl)⟩⟩
      · show 0 < s.close.next
        rw [c1]; exact hs.pos
      · show i < s.close.next
        rw [c1]
        rcases c9 i hi with h | h
        · exact hs.closed_lt i h
        · rw [h]; exact hs.lt
      · show 0 < s.close.next
        rw [c1]; exact hs.pos
      · show s.close.files.length = s.close.next
        rw [c1, c2]; exact hs.files
      · show s.next ≤ s.close.next
        rw [c1]
      · show s.files <+: s.close.files
        rw [c2]
      · show s.opened <+: s.close.opened
        rw [c3]
      · show s.written <+: s.close.written
        rw [c4]
  | .log v, s, hs => by
    unfold exec
    rw [if_neg hs.open_]
    exact ⟨⟨hs.lt, hs.open_, hs.closed_lt, hs.default, hs.pos, hs.files⟩,
      ⟨le_rfl, fun _ _ _ => Iff.rfl, fun _ h => h, List.prefix_refl _, List.prefix_refl _, List.prefix_append _ _, .inl rfl⟩⟩
  | .raise x, s, hs => ⟨hs, Keeps.refl s⟩
  | .scope a p, s, hs => by
    unfold exec
    rcases hc : configure e a s with ⟨t, _ | x⟩
    · have h1 := configure_good (e := e) (a := a) hs
      rw [hc] at h1
      obtain ⟨g1, k1⟩ := h1
      obtain ⟨g2, k2⟩ := exec_good e p t g1
      have tc : t.current = s.next := by obtain ⟨-, rfl⟩ := configure_none hc; rfl
      have tcl : t.closed = s.closed := by obtain ⟨-, rfl⟩ := configure_none hc; rfl
      have tn : t.next = s.next + 1 := by obtain ⟨-, rfl⟩ := configure_none hc; rfl
      show Good { (exec e p t).1.close with current := s.current } ∧ Keeps s { (exec e p t).1.close with current := s.current }
      generalize (exec e p t).1 = u at g2 k2 ⊢
      obtain ⟨c1, c2, c3, c4, c5, c6, c7, c8, c9⟩ := close_rest u
      have ucur : u.current = 0 ∨ s.next ≤ u.current := by
        rcases k2.cur with h | h | h
        · exact .inr (by omega)
        · exact .inl h
        · exact .inr (by omega)
      have hcl : ∀ i, i < s.next → (i ∈ u.close.closed ↔ i ∈ s.closed) := fun i hi => by
        have e1 : i ∈ u.closed ↔ i ∈ s.closed := by
          rw [k2.closed i (by omega) (by omega), tcl]
        by_cases h : i = u.current
        · have h0 : i = 0 := by rcases ucur with h' | h' <;> omega
          subst h0
          exact ⟨fun x => absurd x (c8 g2.default), fun x => absurd x hs.default⟩
        · rw [close_mem h, e1]
      refine ⟨⟨?_, ?_, fun i hi => ?_, c8 g2.default, ?_, ?_⟩, ⟨?_, fun i hi _ => hcl i hi, fun i hi => (hcl i (hs.closed_lt i hi)).2 hi, ?_, ?_, ?_, .inl rfl⟩⟩
      · show s.current < u.close.next
        rw [c1]; have := hs.lt; have := k2.next; omega
      · exact fun h => hs.open_ ((hcl _ hs.lt).1 h)
      · show i < u.close.next
        rw [c1]
        rcases c9 i hi with h | h
        · exact g2.closed_lt i h
        · rw [h]; exact g2.lt
      · show 0 < u.close.next
        rw [c1]; exact g2.pos
      · show u.close.files.length = u.close.next
        rw [c1, c2]; exact g2.files
      · show s.next ≤ u.close.next
        rw [c1]; exact k1.next.trans k2.next
      · show s.files <+: u.close.files
        rw [c2]; exact k1.files.trans k2.files
      · show s.opened <+: u.close.opened
        rw [c3]; exact k1.opened.trans k2.opened
      · show s.written <+: u.close.written
        rw [c4]; exact k1.written.trans k2.written
    · have h1 := configure_good (e := e) (a := a) hs
      rw [hc] at h1
      exact h1

/-- Every format named in the program is known. -/
def Known (e : Env) : Prog → Prop
  | .seq p q => Known e p ∧ Known e q
  | .configure a => ∀ f ∈ (formats e a).2, (parse f).isSome
  | .scope a p => (∀ f ∈ (formats e a).2, (parse f).isSome) ∧ Known e p
  | .raise _ => False
  | _ => True

theorem makeAll_snd (l : List Str) : (makeAll l).2 = true ↔ ∀ f ∈ l, (parse f).isSome := by
  induction l with
  | nil => simp [makeAll]
  | cons s l ih =>
    unfold makeAll
    cases h : parse s with
    | none => simp [h]
    | some f => simp [h, ih]

/-- **C153, nothing is written to a closed log.** From the start, or any state in order, a program of configurations, resets, scopes and lines, nested in any way,
leaves the current logger open, and if all its formats are known it runs without an error. -/
theorem C153_open (e : Env) (p : Prog) : (exec e p St.start).1.current ∉ (exec e p St.start).1.closed ∧
    ∀ s, s.current ∉ s.closed → (∀ i ∈ s.closed, i < s.next) → 0 ∉ s.closed → s.current < s.next → s.files.length = s.next → Known e p →
      (exec e p s).2 = none ∧ (exec e p s).1.current ∉ (exec e p s).1.closed := by
  refine ⟨(exec_good e p _ good_start).1.open_, fun s h1 h2 h3 h4 h5 hk => ?_⟩
  have hs : Good s := ⟨h4, h1, h2, h3, by omega, h5⟩
  refine ⟨?_, (exec_good e p s hs).1.open_⟩
  clear h1 h2 h3 h4 h5
  have conf : ∀ (a : Args) (s : St), (∀ f ∈ (formats e a).2, (parse f).isSome) → (configure e a s).2 = none := fun a s h => by
    rcases hc : configure e a s with ⟨t, _ | x⟩
    · rfl
    · have := (configure_some hc).1
      rw [(makeAll_snd _).2 h] at this
      cases this
  induction p generalizing s with
  | skip => rfl
  | seq p q ihp ihq =>
    unfold exec
    have h1 := ihp s hk.1 hs
    have g1 := (exec_good e p s hs).1
    rcases hp : exec e p s with ⟨t, _ | x⟩
    · rw [hp] at g1; exact ihq t hk.2 g1
    · rw [hp] at h1; cases h1
  | configure a => exact conf a s hk
  | reset => rfl
  | log v => unfold exec; rw [if_neg hs.open_]
  | raise x => exact hk.elim
  | scope a p ih =>
    unfold exec
    have h1 := conf a s hk.1
    have g1 := (configure_good (e := e) (a := a) hs).1
    rcases hc : configure e a s with ⟨t, _ | x⟩
    · rw [hc] at g1; exact ih t hk.2 g1
    · rw [hc] at h1; cases h1

/-- **C153, scopes.** After `with ScopedConfigure(...)`, whatever the body did and however it ended, the logger that was current is current again; it and every
other older logger is open exactly if it was before, and the next line goes to it. -/
theorem C153_scope (e : Env) (a : Args) (p : Prog) {s : St} (hs : Good s) :
    (exec e (.scope a p) s).1.current = s.current ∧
    (∀ i, i < s.next → (i ∈ (exec e (.scope a p) s).1.closed ↔ i ∈ s.closed)) ∧
    (∀ v, ((exec e (.scope a p) s).2 = none) → ∃ w, (exec e (.seq (.scope a p) (.log v)) s).1.written = w ++ [(s.current, v)]) := by
  have hcur : (exec e (.scope a p) s).1.current = s.current := by
    unfold exec
    rcases hc : configure e a s with ⟨t, _ | x⟩
    · rfl
    · obtain ⟨-, -, rfl⟩ := configure_some hc; rfl
  obtain ⟨g, k⟩ := exec_good e (.scope a p) s hs
  refine ⟨hcur, fun i hi => ?_, fun v hv => ?_⟩
  · by_cases h : i = s.current
    · subst h
      exact ⟨fun x => absurd x (by rw [← hcur]; exact g.open_), fun x => absurd x hs.open_⟩
    · exact k.closed i hi h
  · have : exec e (.seq (.scope a p) (.log v)) s = exec e (.log v) (exec e (.scope a p) s).1 := by
      rw [exec]
      rcases hc : exec e (.scope a p) s with ⟨t, _ | x⟩
      · rfl
      · rw [hc] at hv; cases hv
    rw [this, exec, if_neg g.open_, hcur]
    exact ⟨_, rfl⟩

/-- Only scopes: no `configure` and no `reset` outside the scopes' own. -/
def Scoped : Prog → Prop
  | .seq p q => Scoped p ∧ Scoped q
  | .configure _ => False
  | .reset => False
  | .scope _ p => Scoped p
  | _ => True

theorem scoped_closed (e : Env) : ∀ (p : Prog), Scoped p → ∀ s, Good s → (exec e p s).1.current = s.current ∧
    ∀ i, s.next ≤ i → i < (exec e p s).1.next → i ∈ (exec e p s).1.closed
  | .skip, _, s, _ => ⟨rfl, fun i h1 h2 => absurd h2 (by simpa [exec] using h1)⟩
  | .seq p q, hp, s, hs => by
    obtain ⟨c1, d1⟩ := scoped_closed e p hp.1 s hs
    have g1 := (exec_good e p s hs).1
    rw [exec]
    rcases hc : exec e p s with ⟨t, _ | x⟩
    · rw [hc] at c1 d1 g1
      obtain ⟨c2, d2⟩ := scoped_closed e q hp.2 t g1
      refine ⟨c2.trans c1, fun i h1 h2 => ?_⟩
      by_cases h : i < t.next
      · exact (exec_good e q t g1).2.mono i (d1 i h1 h)
      · exact d2 i (by omega) h2
    · rw [hc] at c1 d1
      exact ⟨c1, d1⟩
  | .log v, _, s, hs => by
    rw [exec, if_neg hs.open_]
    exact ⟨rfl, fun i h1 h2 => absurd h2 (by simpa using h1)⟩
  | .raise x, _, s, _ => ⟨rfl, fun i h1 h2 => absurd h2 (by simpa [exec] using h1)⟩
  | .scope a p, hp, s, hs => by
    refine ⟨(C153_scope e a p hs).1, fun i h1 h2 => ?_⟩
    have g1 := (configure_good (e := e) (a := a) hs).1
    rw [exec] at h2 ⊢
    rcases hc : configure e a s with ⟨t, _ | x⟩
    · rw [hc] at h2 g1
      have tc : t.current = s.next := by obtain ⟨-, rfl⟩ := configure_none hc; rfl
      have tn : t.next = s.next + 1 := by obtain ⟨-, rfl⟩ := configure_none hc; rfl
      obtain ⟨c2, d2⟩ := scoped_closed e p hp t g1
      obtain ⟨r1, -, -, -, -, r6, r7, -⟩ := close_rest (exec e p t).1
      have h2' : i < (exec e p t).1.next := by
        have : i < (exec e p t).1.close.next := h2
        rwa [r1] at this
      show i ∈ (exec e p t).1.close.closed
      by_cases h : i = s.next
      · have hi : i = (exec e p t).1.current := by rw [c2, tc, h]
        rw [hi]
        exact r7 (by rw [c2, tc]; have := hs.pos; omega)
      · exact r6 i (d2 i (by omega) h2')
    · rw [hc] at h2
      obtain ⟨-, -, rfl⟩ := configure_some hc
      exact absurd h2 (by simpa using h1)

/-- **C153, scopes leave nothing open.** If loggers are only made by scopes, every logger made has been closed at the end, also after an error, and a line logged in a
scope goes to the logger of the innermost one. -/
theorem C153_closed (e : Env) (a : Args) {p : Prog} (hp : Scoped p) {s : St} (hs : Good s) :
    (∀ i, s.next ≤ i → i < (exec e (.scope a p) s).1.next → i ∈ (exec e (.scope a p) s).1.closed) ∧
    ∀ v, (exec e (.scope a (.seq p (.log v))) s).2 = none → ∃ w, (exec e (.scope a (.seq p (.log v))) s).1.written = w ++ [(s.next, v)] := by
  refine ⟨(scoped_closed e (.scope a p) hp s hs).2, fun v hv => ?_⟩
  have g1 := (configure_good (e := e) (a := a) hs).1
  rw [exec] at hv ⊢
  rcases hc : configure e a s with ⟨t, _ | x⟩
  · rw [hc] at hv g1
    have tc : t.current = s.next := by obtain ⟨-, rfl⟩ := configure_none hc; rfl
    obtain ⟨c2, -⟩ := scoped_closed e p hp t g1
    have g2 := (exec_good e p t g1).1
    show ∃ w, (exec e (.seq p (.log v)) t).1.close.written = _
    rw [(close_rest _).2.2.2.1]
    have hv' : (exec e (.seq p (.log v)) t).2 = none := hv
    rw [exec] at hv' ⊢
    rcases hq : exec e p t with ⟨u, _ | x⟩
    · rw [hq] at c2 g2
      show ∃ w, (exec e (.log v) u).1.written = _
      rw [exec, if_neg g2.open_]
      exact ⟨u.written, by rw [← tc, ← c2]⟩
    · rw [hq] at hv'; cases hv'
  · rw [hc] at hv; cases hv

/-- **C153, reset and errors.** `reset` makes the default logger current and closes the one that was current and no other; an error raised in the body of a scope
is raised by the scope: a scope ends without an error exactly if its formats are known and its body does. -/
theorem C153_reset (e : Env) (a : Args) (p : Prog) {s : St} (hs : Good s) :
    (exec e .reset s).1.current = 0 ∧ (exec e .reset s).2 = none ∧
    (∀ i, i ∈ (exec e .reset s).1.closed ↔ i ∈ s.closed ∨ (i = s.current ∧ i ≠ 0)) ∧
    (∀ x, (exec e p (configure e a s).1).2 = some x → (∀ f ∈ (formats e a).2, (parse f).isSome) → (exec e (.scope a p) s).2 = some x) ∧
    ((exec e (.scope a p) s).2 = none ↔ (∀ f ∈ (formats e a).2, (parse f).isSome) ∧ (exec e p (configure e a s).1).2 = none) := by
  refine ⟨?_, rfl, fun i => ?_, fun x hx hk => ?_, ?_⟩
  · show (reset s).current = 0
    unfold reset
    split_ifs with h
    · exact h
    · rfl
  · show i ∈ (reset s).closed ↔ _
    unfold reset St.close
    by_cases h : s.current = 0
    · rw [if_pos h]
      exact ⟨fun x => .inl x, fun x => x.elim id fun y => absurd (y.1.trans h) y.2⟩
    · rw [if_neg h, if_neg h]
      show i ∈ s.current :: s.closed ↔ _
      rw [List.mem_cons]
      exact ⟨fun x => x.elim (fun y => .inr ⟨y, y ▸ h⟩) .inl, fun x => x.elim .inr fun y => .inl y.1⟩
  · rw [exec]
    rcases hc : configure e a s with ⟨t, _ | y⟩
    · rw [hc] at hx; exact hx
    · have := (configure_some hc).1
      rw [(makeAll_snd _).2 hk] at this; cases this
  · rw [exec, ← makeAll_snd]
    rcases hc : configure e a s with ⟨t, _ | y⟩
    · exact ⟨fun h => ⟨(configure_none hc).1, h⟩, fun h => h.2⟩
    · refine ⟨(fun h => by cases h), fun h => ?_⟩
      rw [(configure_some hc).1] at h; cases h.1

/-- **C153, unknown formats.** `configure` fails with a `ValueError` exactly if a name is not known; the current logger then stays what it was, but the files
of the formats before the unknown one have been opened, that is emptied. -/
theorem C153_unknown (e : Env) (a : Args) (s : St) :
    ((configure e a s).2 = some .valueError ↔ ∃ f ∈ (formats e a).2, parse f = none) ∧
    ((configure e a s).2 = some .valueError → (configure e a s).1.current = s.current ∧ (configure e a s).1.closed = s.closed ∧
      ∃ l f r, (formats e a).2 = l ++ f :: r ∧ parse f = none ∧
        (configure e a s).1.opened = s.opened ++ paths (folder e a) (formats e a).1 (l.filterMap parse)) := by
  have key : ∀ l : List Str, (makeAll l).2 = false → ∃ l1 f r, l = l1 ++ f :: r ∧ parse f = none ∧ (makeAll l).1 = l1.filterMap parse := by
    intro l
    induction l with
    | nil => intro h; cases h
    | cons s l ih =>
      intro h
      unfold makeAll at h ⊢
      cases hs : parse s with
      | none => exact ⟨[], s, l, rfl, hs, rfl⟩
      | some f =>
        rw [hs] at h
        obtain ⟨l1, f', r, e1, e2, e3⟩ := ih h
        exact ⟨s :: l1, f', r, by rw [e1]; rfl, e2, by simp [hs, e3]⟩
  rcases hc : configure e a s with ⟨t, _ | x⟩
  · have h1 := (makeAll_snd _).1 (configure_none hc).1
    refine ⟨⟨(fun h => by cases h), ?_⟩, (fun h => by cases h)⟩
    rintro ⟨f, hf, hn⟩
    have := h1 f hf
    rw [hn] at this; cases this
  · obtain ⟨h1, rfl, rfl⟩ := configure_some hc
    obtain ⟨l, f, r, e1, e2, e3⟩ := key _ h1
    exact ⟨⟨fun _ => ⟨f, by rw [e1]; simp, e2⟩, fun _ => rfl⟩, fun _ => ⟨rfl, rfl, l, f, r, e1, e2, by rw [e3]⟩⟩

theorem file_ne {r q : ℕ} (h : r ≠ q) (f g : Fmt) {n : Str} (h1 : f.file (if r = 0 then [] else rankSuffix r) = some n)
    (h2 : g.file (if q = 0 then [] else rankSuffix q) = some n) : False := by
  have hsuf : (if r = 0 then [] else rankSuffix r) = (if q = 0 then [] else rankSuffix q) → False := by
    intro e
    split_ifs at e with a b b
    · omega
    · simp [rankSuffix] at e
    · simp [rankSuffix] at e
    · exact h (AEO.zfill3_inj (List.append_cancel_left e))
  generalize (if r = 0 then [] else rankSuffix r) = u at *
  generalize (if q = 0 then [] else rankSuffix q) = w at *
  have hh : f.file u = g.file w := h1.trans h2.symm
  have hl := congrArg (Option.map List.getLast?) hh
  cases f <;> cases g <;> simp [Fmt.file] at h1 h2 hh hl <;> first | exact hsuf hh | (have := congrArg List.getLast? hh; simp at this)

/-- **C153, processes with the default formats.** Without `format_strs` processes of different ranks that log to the same folder open different files, whatever
formats the environment names. -/
theorem C153_ranks (e1 e2 : Env) (a1 a2 : Args) (h : e1.rank ≠ e2.rank) (h1 : a1.formats = none) (h2 : a2.formats = none) (l1 l2 : List Fmt) (q : Str × Str)
    (m1 : q ∈ paths (folder e1 a1) (formats e1 a1).1 l1) (m2 : q ∈ paths (folder e2 a2) (formats e2 a2).1 l2) : False := by
  have suf : ∀ (e : Env) (a : Args), a.formats = none → (formats e a).1 = if e.rank = 0 then [] else rankSuffix e.rank := fun e a h => by
    unfold formats
    rw [h]
    by_cases h0 : e.rank = 0 <;> simp [h0]
  rw [suf e1 a1 h1] at m1
  rw [suf e2 a2 h2] at m2
  obtain ⟨f, -, hf⟩ := List.mem_filterMap.1 m1
  obtain ⟨g, -, hg⟩ := List.mem_filterMap.1 m2
  obtain ⟨n, hn, e1⟩ := Option.map_eq_some_iff.1 hf
  obtain ⟨n', hn', e2⟩ := Option.map_eq_some_iff.1 hg
  have : n = n' := by rw [← e2] at e1; exact (Prod.mk.inj e1).2
  subst this
  exact file_ne h f g hn hn'

/-- **C153, processes with given formats (defect).** With `format_strs` the rank is ignored: all processes open, and empty, the same files.  The same goes for a
second `configure` with the same arguments in one process, which empties the files of a logger still in use. -/
theorem C153_shared (e : Env) (a : Args) (r : ℕ) (fs : List Str) (ha : a.formats = some fs) (s : St) (hk : ∀ f ∈ fs, f ≠ [] → (parse f).isSome) :
    configure { e with rank := r } a s = configure e a s ∧
    ∃ ps, (configure e a s).1.opened = s.opened ++ ps ∧ (configure e a s).1.files = s.files ++ [ps] ∧
      (configure e a (configure e a s).1).1.opened = s.opened ++ ps ++ ps ∧ (configure e a (configure e a s).1).1.closed = s.closed ∧
      ps = (fs.filterMap parse).filterMap fun f => (f.file []).map fun n => (folder e a, n) := by
  have ef : formats { e with rank := r } a = formats e a := by unfold formats; rw [ha]
  have ev : formats e a = ([], fs.filter fun f => decide (f ≠ [])) := by unfold formats; rw [ha]
  have hm : (makeAll (formats e a).2).2 = true := (makeAll_snd _).2 (by
    rw [ev]
    intro f hf
    have := List.mem_filter.1 hf
    exact hk f this.1 (by simpa using this.2))
  have hall : ∀ l : List Str, (∀ f ∈ l, (parse f).isSome) → (makeAll l).1 = l.filterMap parse := by
    intro l
    induction l with
    | nil => intro; rfl
    | cons x l ih =>
      intro h
      obtain ⟨f, hf⟩ := Option.isSome_iff_exists.1 (h x List.mem_cons_self)
      unfold makeAll
      simp [hf, ih fun y hy => h y (List.mem_cons_of_mem _ hy)]
  have hfil : (fs.filter fun f => decide (f ≠ [])).filterMap parse = fs.filterMap parse := by
    rw [List.filterMap_filter]
    congr 1
    funext x
    cases x with
    | nil => rfl
    | cons c x => simp
  refine ⟨by unfold configure folder; rw [ef], paths (folder e a) (formats e a).1 (makeAll (formats e a).2).1, ?_, ?_, ?_, ?_, ?_⟩
  · simp [configure, hm]
  · simp [configure, hm]
  · simp [configure, hm]
  · simp [configure, hm]
  · rw [hall _ ((makeAll_snd _).1 hm), ev, hfil]; rfl

/-- **C153, where logs go.** The folder is the argument, else the environment's, else the temporary one; without further settings the first process writes `log.txt`
and `progress.csv` there, another one only a text with its rank in the name. -/
theorem C153_default (e : Env) (hf : e.fmt = none) (hm : e.fmtMpi = none) (d : Option Str) :
    folder e ⟨d, none⟩ = (match d, e.dir with | some x, _ => x | none, some x => x | none, none => e.tmp) ∧
    (configure e ⟨d, none⟩ St.start).2 = none ∧
    (configure e ⟨d, none⟩ St.start).1.files = [[], if e.rank = 0 then
      [(folder e ⟨d, none⟩, "log.txt".toList), (folder e ⟨d, none⟩, "progress.csv".toList)] else
      [(folder e ⟨d, none⟩, "log-rank".toList ++ AEO.zfill3 e.rank ++ ".txt".toList)]] := by
  refine ⟨by cases d <;> cases h : e.dir <;> simp [folder, h], ?_⟩
  have s1 : (['s', 't', 'd', 'o', 'u', 't', ',', 'l', 'o', 'g', ',', 'c', 's', 'v'] : Str).splitOn ',' =
    [['s', 't', 'd', 'o', 'u', 't'], ['l', 'o', 'g'], ['c', 's', 'v']] := by decide +kernel
  have s2 : (['l', 'o', 'g'] : Str).splitOn ',' = [['l', 'o', 'g']] := by decide +kernel
  by_cases h0 : e.rank = 0
  · simp [configure, formats, hf, h0, s1, makeAll, parse, paths, Fmt.file, St.start]
  · simp [configure, formats, hm, h0, s2, makeAll, parse, paths, Fmt.file, St.start, rankSuffix]

/-- Specification: the formats and their files. -/
def table : List (String × Option String) :=
  [("stdout", none), ("log", some "log.txt"), ("json", some "progress.json"), ("csv", some "progress.csv"), ("tensorboard", some "tb")]

/-- **C153, files of the formats.** The formats `stdout`, `log`, `json`, `csv`, `tensorboard` open nothing, `log.txt`, `progress.json`, `progress.csv`, `tb` in the
folder of the logger, and no other names are known. -/
theorem C153_files (e : Env) (d : Option Str) (s : St) :
    (∀ q ∈ table, (configure e ⟨d, some [q.1.toList]⟩ s).2 = none ∧
      (configure e ⟨d, some [q.1.toList]⟩ s).1.opened = s.opened ++ q.2.toList.map fun n => (folder e ⟨d, none⟩, n.toList)) ∧
    ∀ n, n ≠ [] → (configure e ⟨d, some [n]⟩ s).2 = none → ∃ q ∈ table, n = q.1.toList := by
  constructor
  · intro q hq
    simp only [table, List.mem_cons, List.not_mem_nil, or_false] at hq
    rcases hq with rfl | rfl | rfl | rfl | rfl <;> simp [configure, formats, makeAll, parse, paths, Fmt.file, folder]
  · intro n hn h
    rcases hc : configure e ⟨d, some [n]⟩ s with ⟨t, _ | x⟩
    · have h1 := (makeAll_snd _).1 (configure_none hc).1 n (by simp [formats, hn])
      unfold parse at h1
      split_ifs at h1 with a1 a2 a3 a4 a5
      · exact ⟨("stdout", none), by simp [table], by simp [a1]⟩
      · exact ⟨("log", some "log.txt"), by simp [table], by simp [a2]⟩
      · exact ⟨("json", some "progress.json"), by simp [table], by simp [a3]⟩
      · exact ⟨("csv", some "progress.csv"), by simp [table], by simp [a4]⟩
      · exact ⟨("tensorboard", some "tb"), by simp [table], by simp [a5]⟩
      · cases h1
    · rw [hc] at h; cases h

def exEnv : Env := { dir := none, fmt := none, fmtMpi := none, tmp := ['t'], rank := 12 }
def exArgs (c : Char) : Args := { folder := some [c], formats := some [['c', 's', 'v'], ['l', 'o', 'g']] }

/-- Two nested scopes, the inner one ended by an error: lines go to the loggers 1, 2; both are closed. -/
example : exec exEnv (.scope (exArgs 'a') (.seq (.log ['x']) (.scope (exArgs 'b') (.seq (.log ['y']) (.raise .keyError))))) St.start =
    ({ current := 0, next := 3, closed := [1, 2], files := [[], [(['a'], "progress.csv".toList), (['a'], "log.txt".toList)],
        [(['b'], "progress.csv".toList), (['b'], "log.txt".toList)]],
       opened := [(['a'], "progress.csv".toList), (['a'], "log.txt".toList), (['b'], "progress.csv".toList), (['b'], "log.txt".toList)],
       written := [(1, ['x']), (2, ['y'])] }, some .keyError) := by decide +kernel

/-- The states of the theorems on scopes: any state reached from the start, here inside a configuration after a scope. -/
example (a b c : Args) : Good (exec exEnv (.seq (.configure a) (.seq (.scope b (.reset)) (.configure c))) St.start).1 := (exec_good _ _ _ good_start).1

/-- **C153, leak (defect).** `configure` inside a scope: the logger of the scope is never closed, since the exit closes the current one. -/
theorem C153_leak : ∃ (e : Env) (a b : Args), (exec e (.scope a (.configure b)) St.start).1.next = 3 ∧
    1 ∉ (exec e (.scope a (.configure b)) St.start).1.closed ∧ (exec e (.scope a (.configure b)) St.start).1.current = 0 := by
  exact ⟨exEnv, exArgs 'a', exArgs 'b', by decide +kernel, by decide +kernel, by decide +kernel⟩

end Neorl.LogConf
