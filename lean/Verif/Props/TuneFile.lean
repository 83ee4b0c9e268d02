import Verif.TuneFile
import Mathlib.Tactic.Ring
import Mathlib.Tactic.Linarith
import Mathlib.Tactic.NormNum
import Mathlib.Data.List.Perm.Basic
import Mathlib.Data.List.Sort

/-!
# C122: hyperparameter search from an input file
-/

set_option linter.unusedSectionVars false
set_option linter.unusedVariables false

namespace Neorl.TuneFile

/-! ### The template -/

theorem lastIdx_none {m : Str} : ∀ (ls : List Str) (i d : ℕ), (∀ l ∈ ls, ¬ m <:+: l) → lastIdx m i d ls = d
  | [], _, _, _ => rfl
  | l :: ls, i, d, h => by
    rw [lastIdx, if_neg (h l (by simp))]
    exact lastIdx_none ls _ _ fun x hx => h x (by simp [hx])

theorem lastIdx_at {m : Str} : ∀ (pre : List Str) (l : Str) (post : List Str) (i d : ℕ), m <:+: l → (∀ x ∈ post, ¬ m <:+: x) →
    lastIdx m i d (pre ++ l :: post) = i + pre.length
  | [], l, post, i, d, hl, hp => by
    show lastIdx m i d (l :: post) = _
    rw [lastIdx, if_pos hl, lastIdx_none _ _ _ hp]; rfl
  | x :: pre, l, post, i, d, hl, hp => by
    show lastIdx m i d (x :: (pre ++ l :: post)) = _
    rw [lastIdx, lastIdx_at pre l post _ _ hl hp, List.length_cons]; omega

/-- The template is the file without the lines of the TUNE card, from READ TUNE to END TUNE, all other lines unchanged and in order. -/
theorem C122_template {pre body post : List Str} {rd en : Str} (hr : "READ TUNE".toList <:+: rd) (he : "END TUNE".toList <:+: en)
    (hre : ¬ "READ TUNE".toList <:+: en) (hb : ∀ l ∈ body, ¬ "READ TUNE".toList <:+: l)
    (hp : ∀ l ∈ post, ¬ "READ TUNE".toList <:+: l ∧ ¬ "END TUNE".toList <:+: l) :
    template (pre ++ rd :: (body ++ en :: post)) = .ok (pre.flatten ++ post.flatten) := by
  have h1 : lastIdx "READ TUNE".toList 0 0 (pre ++ rd :: (body ++ en :: post)) = pre.length := by
    rw [lastIdx_at pre rd (body ++ en :: post) 0 0 hr]
    · omega
    · intro x hx
      rcases List.mem_append.mp hx with hx | hx
      · exact hb x hx
      · rcases List.mem_cons.mp hx with rfl | hx
        · exact hre
        · exact (hp x hx).1
  have e2 : pre ++ rd :: (body ++ en :: post) = (pre ++ rd :: body) ++ en :: post := by simp
  have h2 : lastIdx "END TUNE".toList 0 0 (pre ++ rd :: (body ++ en :: post)) = pre.length + body.length + 1 := by
    rw [e2, lastIdx_at _ en post 0 0 he (fun x hx => (hp x hx).2)]
    simp; omega
  simp only [template, h1, h2]
  rw [if_neg (by omega), List.take_left, e2, show max pre.length (pre.length + body.length + 1 + 1) = ((pre ++ rd :: body) ++ [en]).length by simp; omega]
  rw [show (pre ++ rd :: body) ++ en :: post = ((pre ++ rd :: body) ++ [en]) ++ post by simp, List.drop_left, List.flatten_append]

/-- Defect: a line after the card that mentions READ TUNE, a comment say, keeps the card in the template: nothing at all is removed. -/
theorem C122_template_mention {pre post : List Str} {rd : Str} (h0 : pre ≠ []) (hr : "READ TUNE".toList <:+: rd) (hre : ¬ "END TUNE".toList <:+: rd)
    (hp : ∀ l ∈ post, ¬ "READ TUNE".toList <:+: l ∧ ¬ "END TUNE".toList <:+: l) :
    template (pre ++ rd :: post) = .ok (pre ++ rd :: post).flatten := by
  have h1 : lastIdx "READ TUNE".toList 0 0 (pre ++ rd :: post) = pre.length := by
    rw [lastIdx_at pre rd post 0 0 hr (fun x hx => (hp x hx).1)]; omega
  have hl : 0 < pre.length := List.length_pos_iff.mpr h0
  have aux : ∀ (m : Str) (ls : List Str) (i d : ℕ), lastIdx m i d ls ≤ d ∨ lastIdx m i d ls < i + ls.length := by
    intro m ls
    induction ls with
    | nil => intro i d; exact Or.inl le_rfl
    | cons l ls ih =>
      intro i d
      rw [lastIdx]
      rw [List.length_cons]
      split
      · have h' := ih (i + 1) i
        omega
      · have h' := ih (i + 1) d
        omega
  have happ : ∀ (m : Str) (a b : List Str) (i d : ℕ), (∀ x ∈ b, ¬ m <:+: x) → lastIdx m i d (a ++ b) = lastIdx m i d a := by
    intro m a
    induction a with
    | nil => intro b i d h; exact lastIdx_none b i d h
    | cons x a ih => intro b i d h; rw [List.cons_append, lastIdx, lastIdx, ih b _ _ h]
  have h2 : lastIdx "END TUNE".toList 0 0 (pre ++ rd :: post) < pre.length := by
    rw [happ _ _ _ _ _ (by intro x hx; rcases List.mem_cons.mp hx with rfl | hx; exacts [hre, (hp x hx).2])]
    rcases aux "END TUNE".toList pre 0 0 with h | h <;> omega
  simp only [template, h1]
  rw [if_neg (by omega), max_eq_left (by omega), List.take_append_drop]

/-- Without a READ TUNE or END TUNE line after the first line the tuner stops with a TypeError. -/
theorem C122_template_none {lines : List Str} (h : ∀ l ∈ lines.tail, ¬ "READ TUNE".toList <:+: l ∧ ¬ "END TUNE".toList <:+: l) :
    template lines = .error .typeError := by
  cases lines with
  | nil => rfl
  | cons l ls =>
    have a : ∀ m : Str, (∀ x ∈ ls, ¬ m <:+: x) → lastIdx m 0 0 (l :: ls) = 0 := by
      intro m hm
      rw [lastIdx, lastIdx_none _ _ _ hm]; split <;> rfl
    simp only [template]
    rw [if_pos ⟨a _ fun x hx => (h x hx).1, a _ fun x hx => (h x hx).2⟩]

example : template ["READ TUNE\n".toList, "{x} = 1, 2\n".toList, "END TUNE\n".toList, "lr={x}\n".toList] = .ok "lr={x}\n".toList := by
  have := C122_template (pre := []) (rd := "READ TUNE\n".toList) (body := ["{x} = 1, 2\n".toList]) (en := "END TUNE\n".toList) (post := ["lr={x}\n".toList])
    (by decide) (by decide) (by decide) (by decide) (by decide)
  simpa using this

example : template ["READ TUNE\n".toList, "END TUNE\n".toList, "# no READ TUNE below\n".toList] = .ok "READ TUNE\nEND TUNE\n# no READ TUNE below\n".toList := by decide +kernel

/-! ### Filling the placeholders -/

/-- A text with holes: `l₁ [i₁] l₂ [i₂] … last`. -/
structure Layout where
  pieces : List (Str × ℕ)
  last : Str

/-- The text when hole `i` holds `f i`. -/
def Layout.text (f : ℕ → Str) (T : Layout) : Str := T.pieces.foldr (fun p acc => p.1 ++ f p.2 ++ acc) T.last

theorem text_cons (f : ℕ → Str) (p : Str × ℕ) (ps : List (Str × ℕ)) (last : Str) : Layout.text f ⟨p :: ps, last⟩ = p.1 ++ f p.2 ++ Layout.text f ⟨ps, last⟩ := rfl

theorem text_append (f : ℕ → Str) (ps qs : List (Str × ℕ)) (a b : Str) (i : ℕ) :
    Layout.text f ⟨ps ++ (a, i) :: qs, b⟩ = Layout.text f ⟨ps, a⟩ ++ f i ++ Layout.text f ⟨qs, b⟩ := by
  induction ps with
  | nil => rfl
  | cons p ps ih => rw [List.cons_append, text_cons, ih, text_cons]; simp

/-- No brace in a text. -/
def NoBrace (s : Str) : Prop := '{' ∉ s ∧ '}' ∉ s

/-- A placeholder: `{word}`, where the characters of words are those with `wd`. -/
def IsName (wd : Char → Prop) (n : Str) : Prop := ∃ w : Str, (∀ c ∈ w, wd c) ∧ n = '{' :: (w ++ ['}'])

/-- The literal parts contain no placeholder, and no hole follows a `{` with word characters only in between. -/
def Layout.Clean (wd : Char → Prop) (ns : List Str) (T : Layout) : Prop :=
  (∀ n ∈ ns, ¬ n <:+: T.last) ∧ ∀ p ∈ T.pieces, (∀ n ∈ ns, ¬ n <:+: p.1) ∧ ∀ u : Str, (∀ c ∈ u, wd c) → ¬ ('{' :: u) <:+ p.1

theorem rep_skip {p v : Str} : ∀ (k : ℕ) (a b : Str), a.length = k → replaceAux p v k (a ++ b) = replaceAux p v 0 b
  | 0, [], b, _ => rfl
  | k + 1, c :: a, b, h => by
    rw [List.cons_append, replaceAux]
    exact rep_skip k a b (by simpa using h)

theorem rep_match {p v : Str} (hp : p ≠ []) (b : Str) : replace p v (p ++ b) = v ++ replace p v b := by
  cases p with
  | nil => exact absurd rfl hp
  | cons c s =>
    unfold replace
    rw [List.cons_append, replaceAux, if_pos (by exact ⟨b, by simp⟩)]
    rw [show (c :: s).length - 1 = s.length by simp, rep_skip _ s b rfl]

theorem rep_lit {p v : Str} : ∀ (l rest : Str), (∀ a u : Str, l = a ++ u → u ≠ [] → ¬ p <+: u ++ rest) → replace p v (l ++ rest) = l ++ replace p v rest
  | [], rest, _ => rfl
  | c :: l, rest, h => by
    have h0 := h [] (c :: l) rfl (by simp)
    have ih := rep_lit (p := p) (v := v) l rest fun a u e hu => h (c :: a) u (by rw [e]; rfl) hu
    unfold replace at ih ⊢
    rw [List.cons_append] at h0 ⊢
    rw [replaceAux, if_neg h0, ih]; rfl

variable {wd : Char → Prop}

/-- A match inside a literal with no brace after it. -/
theorem lit_clear (hw : ¬ wd '{' ∧ ¬ wd '}') {n l : Str} (hn : IsName wd n) (h1 : ¬ n <:+: l) (h2 : ∀ u : Str, (∀ c ∈ u, wd c) → ¬ ('{' :: u) <:+ l) (rest : Str) :
    ∀ a u : Str, l = a ++ u → u ≠ [] → ¬ n <+: u ++ rest := by
  intro a u e hu hpre
  obtain ⟨w, hwd, rfl⟩ := hn
  cases u with
  | nil => exact hu rfl
  | cons c u =>
    rw [List.cons_append, List.cons_prefix_cons] at hpre
    obtain ⟨rfl, hpre⟩ := hpre
    rcases le_or_gt (w.length + 1) u.length with hle | hlt
    · have : w ++ ['}'] <+: u := by
        have h3 := List.prefix_of_prefix_length_le hpre (List.prefix_append u rest) (by simpa using hle)
        exact h3
      obtain ⟨t, ht⟩ := this
      refine h1 ⟨a, t, ?_⟩
      rw [e, ← ht]; simp
    · have hu' : u <+: w := by
        have h3 : u <+: w ++ ['}'] := List.prefix_of_prefix_length_le (List.prefix_append u rest) hpre (by simp; omega)
        exact List.prefix_of_prefix_length_le h3 (List.prefix_append _ _) (by omega)
      refine h2 u (fun c hc => hwd c (hu'.subset hc)) ⟨a, e.symm⟩

theorem end_clear {n l : Str} (h1 : ¬ n <:+: l) : ∀ a u : Str, l = a ++ u → u ≠ [] → ¬ n <+: u ++ [] := by
  intro a u e hu hpre
  rw [List.append_nil] at hpre
  exact h1 (hpre.isInfix.trans ⟨a, [], by simp [e]⟩)

theorem val_clear {n v : Str} (hn : IsName wd n) (hv : '{' ∉ v) (rest : Str) : ∀ a u : Str, v = a ++ u → u ≠ [] → ¬ n <+: u ++ rest := by
  intro a u e hu hpre
  obtain ⟨w, hwd, rfl⟩ := hn
  cases u with
  | nil => exact hu rfl
  | cons c u =>
    rw [List.cons_append, List.cons_prefix_cons] at hpre
    exact hv (by rw [e, ← hpre.1]; simp)

theorem name_clear (hw : ¬ wd '{' ∧ ¬ wd '}') {n m : Str} (hn : IsName wd n) (hm : IsName wd m) (hne : n ≠ m) (rest : Str) :
    ∀ a u : Str, m = a ++ u → u ≠ [] → ¬ n <+: u ++ rest := by
  intro a u e hu hpre
  obtain ⟨w, hwd, rfl⟩ := hn
  obtain ⟨w', hwd', rfl⟩ := hm
  cases u with
  | nil => exact hu rfl
  | cons c u =>
    rw [List.cons_append, List.cons_prefix_cons] at hpre
    obtain ⟨rfl, hpre⟩ := hpre
    cases a with
    | cons x a =>
      rw [List.cons_append, List.cons.injEq] at e
      have : '{' ∈ w' ++ ['}'] := by rw [e.2]; simp
      rcases List.mem_append.mp this with h | h
      · exact hw.1 (hwd' _ h)
      · simp at h
    | nil =>
      have e' : w' ++ ['}'] = u := by simpa using e
      rw [← e', List.append_assoc] at hpre
      -- w ++ ['}'] prefix of w' ++ ('}' :: rest)
      apply hne
      have key : ∀ (x y : Str) (r : Str), (∀ c ∈ x, wd c) → (∀ c ∈ y, wd c) → x ++ ['}'] <+: y ++ (['}'] ++ r) → x = y := by
        intro x
        induction x with
        | nil =>
          intro y r _ hy h
          cases y with
          | nil => rfl
          | cons c y =>
            rw [List.nil_append, List.cons_append, List.cons_prefix_cons] at h
            exact absurd (hy c (by simp)) (h.1 ▸ hw.2)
        | cons c x ih =>
          intro y r hx hy h
          cases y with
          | nil =>
            rw [List.nil_append, List.cons_append, List.singleton_append, List.cons_prefix_cons] at h
            exact absurd (hx c (by simp)) (h.1 ▸ hw.2)
          | cons c' y =>
            rw [List.cons_append, List.cons_append, List.cons_prefix_cons] at h
            rw [h.1, ih y r (fun d hd => hx d (by simp [hd])) (fun d hd => hy d (by simp [hd])) h.2]
      rw [key w w' rest hwd hwd' hpre]

theorem replace_layout (hw : ¬ wd '{' ∧ ¬ wd '}') {n v : Str} (hn : IsName wd n) {last : Str} (hl : ¬ n <:+: last) {f : ℕ → Str} (hf : ∀ i, IsName wd (f i) ∨ NoBrace (f i)) :
    ∀ pieces : List (Str × ℕ), (∀ p ∈ pieces, ¬ n <:+: p.1 ∧ ∀ u : Str, (∀ c ∈ u, wd c) → ¬ ('{' :: u) <:+ p.1) →
    replace n v (Layout.text f ⟨pieces, last⟩) = Layout.text (fun i => if f i = n then v else f i) ⟨pieces, last⟩
  | [], _ => by
    show replace n v last = last
    have := rep_lit (p := n) (v := v) last [] (end_clear hl)
    rw [List.append_nil] at this
    rw [this]; simp [replace, replaceAux]
  | p :: ps, h => by
    have ih := replace_layout hw (v := v) hn hl hf ps fun q hq => h q (by simp [hq])
    rw [text_cons, text_cons, List.append_assoc, rep_lit _ _ (lit_clear hw hn (h p (by simp)).1 (h p (by simp)).2 _), List.append_assoc, ← ih]
    congr 1
    by_cases he : f p.2 = n
    · rw [if_pos he, he, rep_match]
      obtain ⟨w, _, rfl⟩ := hn; simp
    · rw [if_neg he]
      apply rep_lit
      rcases hf p.2 with hm | hm
      · exact name_clear hw hn hm (fun e => he e.symm) _
      · exact val_clear hn hm.1 _

theorem fill_layout (hw : ¬ wd '{' ∧ ¬ wd '}') : ∀ (ns vs : List Str) (T : Layout) (f : ℕ → Str), ns.length ≤ vs.length → (∀ n ∈ ns, IsName wd n) → (∀ v ∈ vs, NoBrace v) →
    T.Clean wd ns → (∀ i, IsName wd (f i) ∨ NoBrace (f i)) →
    fill ns vs (T.text f) = .ok (T.text fun i => (ns.zip vs).foldl (fun s e => if s = e.1 then e.2 else s) (f i))
  | [], vs, T, f, _, _, _, _, _ => rfl
  | n :: ns, [], T, f, hl, _, _, _, _ => by simp at hl
  | n :: ns, v :: vs, T, f, hl, hn, hv, hT, hf => by
    rw [fill, show T.text f = Layout.text f ⟨T.pieces, T.last⟩ from rfl,
      replace_layout hw (hn n (by simp)) (hT.1 n (by simp)) hf T.pieces (fun p hp => ⟨(hT.2 p hp).1 n (by simp), (hT.2 p hp).2⟩)]
    have := fill_layout hw ns vs T (fun i => if f i = n then v else f i) (by simpa using hl) (fun m hm => hn m (by simp [hm])) (fun x hx => hv x (by simp [hx]))
      ⟨fun m hm => hT.1 m (by simp [hm]), fun p hp => ⟨fun m hm => (hT.2 p hp).1 m (by simp [hm]), (hT.2 p hp).2⟩⟩
      (fun i => by by_cases he : f i = n
                   · simp only [he, if_true]; exact Or.inr (hv v (by simp))
                   · simp only [he, if_false]; exact hf i)
    exact this

theorem name_ne_val {n v : Str} (hn : IsName wd n) (hv : NoBrace v) : v ≠ n := by
  rintro rfl
  obtain ⟨w, _, rfl⟩ := hn
  exact hv.1 (by simp)

theorem fold_val (ns vs : List Str) {s : Str} (hn : ∀ n ∈ ns, IsName wd n) (hs : NoBrace s) : (ns.zip vs).foldl (fun s e => if s = e.1 then e.2 else s) s = s := by
  induction ns generalizing vs with
  | nil => rfl
  | cons n ns ih =>
    cases vs with
    | nil => rfl
    | cons v vs =>
      rw [List.zip_cons_cons, List.foldl_cons, if_neg (name_ne_val (hn n (by simp)) hs)]
      exact ih vs fun m hm => hn m (by simp [hm])

theorem fold_name : ∀ (ns vs : List Str) (i : ℕ) (n v : Str), (∀ n ∈ ns, IsName wd n) → (∀ v ∈ vs, NoBrace v) → ns.Nodup → ns[i]? = some n → vs[i]? = some v →
    (ns.zip vs).foldl (fun s e => if s = e.1 then e.2 else s) n = v
  | [], _, _, _, _, _, _, _, h, _ => by simp at h
  | m :: ns, [], _, _, _, _, _, _, _, h => by simp at h
  | m :: ns, x :: vs, 0, n, v, hn, hv, hd, h1, h2 => by
    simp only [List.getElem?_cons_zero, Option.some.injEq] at h1 h2
    subst h1; subst h2
    rw [List.zip_cons_cons, List.foldl_cons, if_pos rfl]
    exact fold_val ns vs (fun k hk => hn k (by simp [hk])) (hv _ (by simp))
  | m :: ns, x :: vs, i + 1, n, v, hn, hv, hd, h1, h2 => by
    simp only [List.getElem?_cons_succ] at h1 h2
    rw [List.nodup_cons] at hd
    rw [List.zip_cons_cons, List.foldl_cons, if_neg (fun e : n = m => hd.1 (e ▸ List.mem_of_getElem? h1))]
    exact fold_name ns vs i n v (fun k hk => hn k (by simp [hk])) (fun k hk => hv k (by simp [hk])) hd.2 h1 h2

/-- Filling a template puts each value into all holes of its own placeholder and leaves everything else as it is, although the
replacements are made one after the other. -/
theorem C122_fill (hw : ¬ wd '{' ∧ ¬ wd '}') {ns vs : List Str} (hn : ∀ n ∈ ns, IsName wd n) (hd : ns.Nodup) (hl : vs.length = ns.length) (hv : ∀ v ∈ vs, NoBrace v)
    {T : Layout} (hT : T.Clean wd ns) (hi : ∀ p ∈ T.pieces, p.2 < ns.length) :
    fill ns vs (T.text fun i => ns.getD i []) = .ok (T.text fun i => vs.getD i []) := by
  rw [fill_layout hw ns vs T _ (by omega) hn hv hT]
  · congr 1
    obtain ⟨ps, last⟩ := T
    have : ∀ ps : List (Str × ℕ), (∀ p ∈ ps, p.2 < ns.length) →
        Layout.text (fun i => (ns.zip vs).foldl (fun s e => if s = e.1 then e.2 else s) (ns.getD i [])) ⟨ps, last⟩ = Layout.text (fun i => vs.getD i []) ⟨ps, last⟩ := by
      intro ps
      induction ps with
      | nil => intro _; rfl
      | cons p ps ih =>
        intro h
        have e := ih fun q hq => h q (by simp [hq])
        have hp := h p (by simp)
        have hp' : p.2 < vs.length := by omega
        have : (ns.zip vs).foldl (fun s e => if s = e.1 then e.2 else s) (ns.getD p.2 []) = vs.getD p.2 [] := by
          rw [List.getD_eq_getElem?_getD, List.getD_eq_getElem?_getD, List.getElem?_eq_getElem hp, List.getElem?_eq_getElem hp']
          exact fold_name ns vs p.2 _ _ hn hv hd (List.getElem?_eq_getElem hp) (List.getElem?_eq_getElem hp')
        rw [text_cons, text_cons, e, this]
    exact this ps hi
  · intro i
    rcases lt_or_ge i ns.length with h | h
    · rw [List.getD_eq_getElem _ _ h]; exact Or.inl (hn _ (List.getElem_mem h))
    · rw [List.getD_eq_getElem?_getD, List.getElem?_eq_none h]; exact Or.inr ⟨by simp, by simp⟩

/-- Every text is of this form for every list of placeholders: literal parts without placeholders, and holes. -/
theorem C122_layout (ns : List Str) (h0 : ∀ n ∈ ns, n ≠ []) (t : Str) :
    ∃ T : Layout, t = T.text (fun i => ns.getD i []) ∧ (∀ n ∈ ns, ¬ n <:+: T.last) ∧ ∀ p ∈ T.pieces, p.2 < ns.length ∧ ∀ n ∈ ns, ¬ n <:+: p.1 := by
  induction hk : t.length using Nat.strong_induction_on generalizing t with
  | _ k ih =>
    by_cases h : ∃ n ∈ ns, n <:+: t
    · obtain ⟨n, hn, a, b, e⟩ := h
      have hpos := List.length_pos_iff.mpr (h0 n hn)
      have hlen : a.length + n.length + b.length = k := by rw [← hk, ← e]; simp; omega
      obtain ⟨Ta, ea, a1, a2⟩ := ih a.length (by omega) a rfl
      obtain ⟨Tb, eb, b1, b2⟩ := ih b.length (by omega) b rfl
      obtain ⟨i, hi, rfl⟩ := List.getElem_of_mem hn
      refine ⟨⟨Ta.pieces ++ (Ta.last, i) :: Tb.pieces, Tb.last⟩, ?_, b1, ?_⟩
      · rw [text_append]
        show t = Ta.text _ ++ _ ++ Tb.text _
        rw [← ea, ← eb, List.getD_eq_getElem _ _ hi, ← e]
      · intro p hp
        rcases List.mem_append.mp hp with hp | hp
        · exact a2 p hp
        · rcases List.mem_cons.mp hp with rfl | hp
          · exact ⟨hi, a1⟩
          · exact b2 p hp
    · exact ⟨⟨[], t⟩, rfl, fun n hn hi => h ⟨n, hn, hi⟩, by simp⟩

/-- With fewer values than placeholders no case file is written. -/
theorem C122_fill_short : ∀ (ns vs : List Str) (t : Str), vs.length < ns.length → fill ns vs t = .error .indexError
  | [], vs, t, h => by simp at h
  | n :: ns, [], t, h => rfl
  | n :: ns, v :: vs, t, h => by rw [fill]; exact C122_fill_short ns vs _ (by simpa using h)

/-- Defect: a value put between braces can become a placeholder itself and is replaced a second time; whether this happens depends on
the order of the names. -/
theorem C122_nested : fill ["{y}".toList, "{x}".toList] ["x".toList, "7".toList] "a={{y}}".toList = .ok "a=7".toList ∧
    fill ["{x}".toList, "{y}".toList] ["7".toList, "x".toList] "a={{y}}".toList = .ok "a={x}".toList := by decide +kernel

/-- The characters of words in the examples. -/
def letter (c : Char) : Prop := c.isAlphanum = true

theorem letter_brace : ¬ letter '{' ∧ ¬ letter '}' := by constructor <;> (show ¬ (_ = true)) <;> decide

example : IsName letter "{lr}".toList := ⟨"lr".toList, by intro c hc; simp at hc; rcases hc with rfl | rfl <;> rfl, rfl⟩

/-- A template with a dictionary around placeholders meets the hypotheses of `C122_fill`. -/
def exLayout : Layout := ⟨[("env_data={\"a\": ".toList, 0), (", \"b\": ".toList, 1), ("}\nlr=".toList, 0)], "\n".toList⟩

example : exLayout.text (fun i => ["{x}".toList, "{y}".toList].getD i []) = "env_data={\"a\": {x}, \"b\": {y}}\nlr={x}\n".toList := by decide +kernel

theorem exClean : exLayout.Clean letter ["{x}".toList, "{y}".toList] := by
  refine ⟨by decide, ?_⟩
  have no : ∀ (l u : Str), (∀ c ∈ u, letter c) → ('{' :: u) <:+ l → ∀ s : Str, l.reverse.takeWhile (fun c => c.isAlphanum) = s → (l.reverse.drop s.length).head? = some '{' := by
    intro l u hu ⟨a, e⟩ s hs
    have e2 : l.reverse = u.reverse ++ '{' :: a.reverse := by rw [← e]; simp
    have ht : l.reverse.takeWhile (fun c => c.isAlphanum) = u.reverse := by
      rw [e2, List.takeWhile_append_of_pos (by intro c hc; exact hu c (by simpa using hc))]
      simp [List.takeWhile]
    rw [← hs, ht, e2, List.drop_left]; rfl
  intro p hp
  simp only [exLayout, List.mem_cons, List.not_mem_nil, or_false] at hp
  rcases hp with rfl | rfl | rfl
  · exact ⟨by decide, fun u hu h => absurd (no _ u hu h _ rfl) (by decide)⟩
  · exact ⟨by decide, fun u hu h => absurd (no _ u hu h _ rfl) (by decide)⟩
  · exact ⟨by decide, fun u hu h => absurd (no _ u hu h _ rfl) (by decide)⟩

example : fill ["{x}".toList, "{y}".toList] ["3".toList, "0.5".toList] "env_data={\"a\": {x}, \"b\": {y}}\nlr={x}\n".toList =
    .ok "env_data={\"a\": 3, \"b\": 0.5}\nlr=3\n".toList := by
  have := C122_fill (ns := ["{x}".toList, "{y}".toList]) (vs := ["3".toList, "0.5".toList]) letter_brace
    (by intro n hn; simp at hn; rcases hn with rfl | rfl
        · exact ⟨['x'], by intro c hc; simp at hc; subst hc; rfl, rfl⟩
        · exact ⟨['y'], by intro c hc; simp at hc; subst hc; rfl, rfl⟩)
    (by decide) rfl (by intro v hv; simp at hv; rcases hv with rfl | rfl <;> constructor <;> decide) exClean (by decide)
  exact this

section
variable {K : Type} [Field K] [LinearOrder K] [IsStrictOrderedRing K] [FloorRing K]

/-! ### Case files -/

/-- `gen_cases` writes one file per case, in order; file `i` is the template with the values of case `i` written into their holes. -/
theorem C122_files (hw : ¬ wd '{' ∧ ¬ wd '}') {L : Lib K} {ns : List Str} (hn : ∀ n ∈ ns, IsName wd n) (hd : ns.Nodup) {cs : List (List (Val K))}
    (hl : ∀ c ∈ cs, c.length = ns.length) (hv : ∀ c ∈ cs, ∀ v ∈ c, NoBrace (v.show L)) {T : Layout} (hT : T.Clean wd ns) (hi : ∀ p ∈ T.pieces, p.2 < ns.length) :
    genFiles L (T.text fun i => ns.getD i []) (ns, cs) = .ok (cs.map fun c => T.text fun i => (c.map (Val.show L)).getD i []) := by
  unfold genFiles caseFiles
  induction cs with
  | nil => rfl
  | cons c cs ih =>
    have h1 := C122_fill hw hn hd (vs := c.map (Val.show L)) (by rw [List.length_map]; exact hl c (by simp))
      (by intro v hv'; obtain ⟨x, hx, rfl⟩ := List.mem_map.mp hv'; exact hv c (by simp) x hx) hT hi
    have h2 := ih (fun x hx => hl x (by simp [hx])) (fun x hx => hv x (by simp [hx]))
    simp only [List.map_cons, List.mapM_cons] at h2 ⊢
    rw [h1, h2]; rfl

/-! ### Grid search -/

/-- The tuned parameters of a card. -/
def params (block : List (Str × Str)) : List (Str × Str) := block.filter fun e => isParam e.1

theorem gridParams_eq (L : Lib K) (t : Str) : ∀ block : List (Str × Str),
    gridParams L t block = if ∀ e ∈ params block, e.1 <:+: t then .ok ((params block).map fun e => (e.1, (InputFile.split ',' e.2).map (element L))) else .error .valueError
  | [] => rfl
  | (k, v) :: rest => by
    rw [gridParams]
    by_cases hk : isParam k
    · have hp : params ((k, v) :: rest) = (k, v) :: params rest := by simp [params, hk]
      rw [if_pos hk, hp, gridParams_eq L t rest]
      by_cases hkt : k <:+: t
      · rw [if_pos hkt]
        by_cases hr : ∀ e ∈ params rest, e.1 <:+: t
        · rw [if_pos hr, if_pos (by intro e he; rcases List.mem_cons.mp he with rfl | he; exacts [hkt, hr e he])]; rfl
        · rw [if_neg hr, if_neg (fun h => hr fun e he => h e (by simp [he]))]; rfl
      · rw [if_neg hkt, if_neg (fun h => hkt (h (k, v) (by simp)))]
    · have hp : params ((k, v) :: rest) = params rest := by simp [params, hk]
      rw [if_neg hk, hp, gridParams_eq L t rest]

/-- What counts as a tuned parameter: a key with both braces that is not commented out. -/
theorem C122_params (k : Str) : isParam k = true ↔ '{' ∈ k ∧ '}' ∈ k ∧ k.head? ≠ some '#' := by
  cases k with
  | nil => simp [isParam]
  | cons c s => simp [isParam, and_assoc]

/-- A field of the value list is an integer when it can be read as one, else a float, else its text. -/
theorem C122_element (L : Lib K) (s : Str) : (∀ z, L.int? (InputFile.strip L.C s) = some z → element L s = .int z) ∧
    (∀ x, L.int? (InputFile.strip L.C s) = none → L.float? (InputFile.strip L.C s) = some x → element L s = .num x) ∧
    (L.int? (InputFile.strip L.C s) = none → L.float? (InputFile.strip L.C s) = none → element L s = .str (InputFile.strip L.C s)) := by
  refine ⟨fun z h => ?_, fun x h h' => ?_, fun h h' => ?_⟩ <;> simp [element, *]

/-- A number given for an integer is cut towards zero. -/
theorem C122_trunc (L : Lib K) (x : K) : ∃ z : ℤ, toInt L (.num x) = some z ∧ (0 ≤ x → (z : K) ≤ x ∧ x < z + 1) ∧ (x < 0 → x ≤ (z : K) ∧ (z : K) < x + 1) := by
  refine ⟨_, rfl, fun h => ?_, fun h => ?_⟩
  · rw [if_pos h]
    exact ⟨Int.floor_le _, Int.lt_floor_add_one _⟩
  · rw [if_neg (not_le.2 h)]
    exact ⟨Int.le_ceil _, Int.ceil_lt_add_one _⟩

/-- The grid search: it stops exactly when a tuned name does not occur in the template; else the names are those of the card in order
and the cases are exactly the combinations of one field for each, as many as the product of the numbers of fields, the first name varying slowest. -/
theorem C122_grid (L : Lib K) (t : Str) (block : List (Str × Str)) :
    (gridCases L t block = .error .valueError ↔ ∃ e ∈ params block, ¬ e.1 <:+: t) ∧
    ∀ ns cs, gridCases L t block = .ok (ns, cs) → ns = (params block).map Prod.fst ∧
      cs.length = ((params block).map fun e => (InputFile.split ',' e.2).length).prod ∧
      (∀ c, c ∈ cs ↔ List.Forall₂ (fun v (e : Str × Str) => ∃ s ∈ InputFile.split ',' e.2, v = element L s) c (params block)) ∧
      ∀ (k v : Str) (ps : List (Str × Str)), params block = (k, v) :: ps → ∃ tails : List (List (Val K)),
        cs = (InputFile.split ',' v).flatMap fun s => tails.map (element L s :: ·) := by
  unfold gridCases
  rw [gridParams_eq]
  by_cases h : ∀ e ∈ params block, e.1 <:+: t
  · rw [if_pos h]
    refine ⟨⟨fun e => (by cases e), fun ⟨e, he, hn⟩ => absurd (h e he) hn⟩, ?_⟩
    intro ns cs e
    injection e with e
    simp only [Prod.mk.injEq] at e
    obtain ⟨rfl, rfl⟩ := e
    refine ⟨by simp, ?_, ?_, ?_⟩
    · rw [Tune.length_product]; simp [Function.comp_def]
    · intro c
      rw [Tune.mem_product, List.map_map, List.forall₂_map_right_iff]
      constructor <;> intro h <;> refine h.imp ?_
      · intro v e hv
        simp only [Function.comp, List.mem_map] at hv
        obtain ⟨s, hs, rfl⟩ := hv
        exact ⟨s, hs, rfl⟩
      · rintro v e ⟨s, hs, rfl⟩
        exact List.mem_map.mpr ⟨s, hs, rfl⟩
    · intro k v ps hps
      refine ⟨Tune.product ((ps.map fun e => (e.1, (InputFile.split ',' e.2).map (element L))).map Prod.snd), ?_⟩
      rw [hps]
      simp only [List.map_cons, Tune.product, List.flatMap_map]
  · rw [if_neg h]
    refine ⟨⟨fun _ => by push Not at h; exact h, fun _ => rfl⟩, fun ns cs e => by cases e⟩

/-- Digits and dots for the examples. -/
def exLib : Lib ℚ where
  C := { ws := fun c => c = ' ', alpha := fun c => c.isAlpha }
  int? := fun s => if s ≠ [] ∧ s.all Char.isDigit then some (Nat.ofDigitChars 10 s 0) else none
  float? := fun s => if s = "0.5".toList then some (1 / 2) else if s ≠ [] ∧ s.all Char.isDigit then some (Nat.ofDigitChars 10 s 0 : ℕ) else none
  showInt := fun z => Nat.toDigits 10 z.toNat
  showNum := fun x => if x = 1 / 2 then "0.5".toList else if x = 0 then "0.0".toList else "1.0".toList

example : gridCases exLib "lr={x}, n={y}".toList [("{x}".toList, "0.5, a".toList), ("ncores".toList, "1".toList), ("#{z}".toList, "1".toList), ("{y}".toList, "3,4".toList)] =
    .ok (["{x}".toList, "{y}".toList], [[.num (1 / 2), .int 3], [.num (1 / 2), .int 4], [.str ['a'], .int 3], [.str ['a'], .int 4]]) := by decide +kernel

/-! ### Random search -/

/-- What a value list of the random search can stand for. -/
inductive Kind (K : Type)
  | uniform (a b : K)
  | normal (m s : K)
  | int (a b : ℤ)
  | grid (g : List (Val K))

/-- The keywords. -/
def words : List Str := ["u".toList, "float".toList, "n".toList, "randint".toList, "int".toList, "grid".toList]

/-- Keywords are not numbers. -/
def Lib.Sane (L : Lib K) : Prop := ∀ w ∈ words, L.int? w = none ∧ L.float? w = none

/-- The fields of a value list: separated by commas, stripped. -/
def fields (L : Lib K) (v : Str) : List Str := (InputFile.split ',' v).map (InputFile.strip L.C)

/-- The value list `v` is written in the documented way for `k`. -/
def Written (L : Lib K) (v : Str) : Kind K → Prop
  | .uniform a b => ∃ sa sb w, fields L v = [sa, sb, w] ∧ (w = "u".toList ∨ w = "float".toList) ∧ L.float? sa = some a ∧ L.float? sb = some b
  | .normal a b => ∃ sa sb, fields L v = [sa, sb, "n".toList] ∧ L.float? sa = some a ∧ L.float? sb = some b
  | .int a b => ∃ sa sb w, fields L v = [sa, sb, w] ∧ (w = "int".toList ∨ w = "randint".toList) ∧ L.int? sa = some a ∧ L.int? sb = some b
  | .grid g => ∃ ss, fields L v = ss ++ ["grid".toList] ∧ (∀ s ∈ ss, s ∉ words) ∧ g = ss.map (element L)

/-- A non-empty range or choice. -/
def Kind.Ok : Kind K → Prop
  | .int a b => a ≤ b
  | .grid g => g ≠ []
  | _ => True

/-- `v` is a possible sample of `k`. -/
def Fits (v : Val K) : Kind K → Prop
  | .uniform a b => ∃ x, v = .num x ∧ min a b ≤ x ∧ x ≤ max a b
  | .normal a b => ∃ x, v = .num x
  | .int a b => ∃ z, v = .int z ∧ a ≤ z ∧ z ≤ b
  | .grid g => v ∈ g

/-- The parsed list of a parameter written for `k`. -/
def Parsed (l : List (Val K)) : Kind K → Prop
  | .uniform a b => ∃ w : Str, (w = "u".toList ∨ w = "float".toList) ∧ l = [.num a, .num b, .str w]
  | .normal a b => l = [.num a, .num b, .str "n".toList]
  | .int a b => ∃ w : Str, (w = "int".toList ∨ w = "randint".toList) ∧ l = [.int a, .int b, .str w]
  | .grid g => l = g ++ [.str "grid".toList] ∧ ∀ w ∈ words, Val.str w ∉ g

theorem hasWord_iff (w : String) (l : List (Val K)) : hasWord w l = true ↔ Val.str w.toList ∈ l := by simp [hasWord]

theorem hasWord_cons (w : String) (v : Val K) (l : List (Val K)) : hasWord w (v :: l) = (decide (Val.str w.toList = v) || hasWord w l) := by
  simp [hasWord, List.mem_cons]

theorem hasWord_nil (w : String) : hasWord w ([] : List (Val K)) = false := by simp [hasWord]

theorem strip_sub (C : InputFile.Chars) (s : Str) : ∀ c ∈ InputFile.strip C s, c ∈ s := by
  intro c hc
  unfold InputFile.strip at hc
  have h1 := List.mem_reverse.mp hc
  have h2 := (List.dropWhile_suffix _).subset h1
  exact (List.dropWhile_suffix _).subset (List.mem_reverse.mp h2)

theorem strip_idem (C : InputFile.Chars) (s : Str) : InputFile.strip C (InputFile.strip C s) = InputFile.strip C s := by
  have fix : ∀ t : Str, (t.dropWhile C.ws).dropWhile C.ws = t.dropWhile C.ws := by
    intro t
    induction t with
    | nil => rfl
    | cons c t ih =>
      by_cases h : C.ws c
      · simp [List.dropWhile, h, ih]
      · simp [List.dropWhile, h]
  have start : ∀ t : Str, t.dropWhile C.ws = t → ((t.reverse.dropWhile C.ws).reverse).dropWhile C.ws = (t.reverse.dropWhile C.ws).reverse := by
    intro t ht
    cases hr : (t.reverse.dropWhile C.ws).reverse with
    | nil => rfl
    | cons c r =>
      obtain ⟨pre, hpre⟩ := List.dropWhile_suffix C.ws (l := t.reverse)
      have : t = (t.reverse.dropWhile C.ws).reverse ++ pre.reverse := by
        have := congrArg List.reverse hpre
        simpa using this.symm
      rw [hr] at this
      rw [this] at ht
      by_cases hc : C.ws c
      · exfalso
        have hl : ((c :: r ++ pre.reverse).dropWhile C.ws).length < (c :: r ++ pre.reverse).length := by
          rw [List.cons_append, List.dropWhile, hc]
          exact lt_of_le_of_lt (List.dropWhile_suffix _).length_le (by simp)
        rw [ht] at hl
        exact lt_irrefl _ hl
      · simp [List.dropWhile, hc]
  unfold InputFile.strip
  rw [start _ (fix s)]
  simp only [List.reverse_reverse]
  rw [fix]

theorem element_word {L : Lib K} (hL : L.Sane) {w : Str} (hw : w ∈ words) (hs : InputFile.strip L.C w = w) : element L w = .str w := by
  have := hL w hw
  simp [element, hs, this.1, this.2]

theorem gridEntries_map (L : Lib K) : ∀ ss : List Str, gridEntries L (ss.map Val.str) = .ok (ss.map (element L))
  | [] => rfl
  | s :: ss => by
    rw [List.map_cons, gridEntries, gridEntries_map L ss]; rfl

theorem element_ne_word {L : Lib K} (hL : L.Sane) {s w : Str} (hs : InputFile.strip L.C s = s) (hne : s ≠ w) : element L s ≠ .str w := by
  unfold element
  rw [hs]
  simp only
  split
  · simp
  · split
    · simp
    · simpa using hne

theorem parseRand_written {L : Lib K} (hL : L.Sane) {v : Str} {k : Kind K} (h : Written L v k) : ∃ l, parseRand L v = .ok l ∧ Parsed l k := by
  have hm : (InputFile.split ',' v).map (fun s => Val.str (K := K) (InputFile.strip L.C s)) = (fields L v).map Val.str := by simp [fields]
  have hst : ∀ s ∈ fields L v, InputFile.strip L.C s = s := by
    intro s hs
    obtain ⟨x, _, rfl⟩ := List.mem_map.mp hs
    exact strip_idem _ _
  have nf : ∀ {s : Str} {x : K}, L.float? s = some x → ∀ w ∈ words, w ≠ s := by
    rintro s x hx w hw rfl
    rw [(hL w hw).2] at hx; cases hx
  have ni : ∀ {s : Str} {x : ℤ}, L.int? s = some x → ∀ w ∈ words, w ≠ s := by
    rintro s x hx w hw rfl
    rw [(hL w hw).1] at hx; cases hx
  cases k with
  | uniform a b =>
    obtain ⟨sa, sb, w, hf, hw, ha, hb⟩ := h
    refine ⟨[.num a, .num b, .str w], ?_, w, hw, rfl⟩
    have da := nf ha
    have db := nf hb
    simp only [words, List.mem_cons, List.not_mem_nil, or_false, forall_eq_or_imp, forall_eq] at da db
    simp at da db
    simp only [parseRand, hm, hf, List.map_cons, List.map_nil]
    rcases hw with rfl | rfl
    · simp [hasWord_cons, hasWord_nil, floats, toFloat, ha, hb, da, db, pure, bind, Except.pure, Except.bind]
    · simp [hasWord_cons, hasWord_nil, floats, toFloat, ha, hb, da, db, pure, bind, Except.pure, Except.bind]
  | normal a b =>
    obtain ⟨sa, sb, hf, ha, hb⟩ := h
    refine ⟨[.num a, .num b, .str "n".toList], ?_, rfl⟩
    have da := nf ha
    have db := nf hb
    simp only [words, List.mem_cons, List.not_mem_nil, or_false, forall_eq_or_imp, forall_eq] at da db
    simp at da db
    simp only [parseRand, hm, hf, List.map_cons, List.map_nil]
    simp [hasWord_cons, hasWord_nil, floats, toFloat, ha, hb, da, db, pure, bind, Except.pure, Except.bind]
  | int a b =>
    obtain ⟨sa, sb, w, hf, hw, ha, hb⟩ := h
    refine ⟨[.int a, .int b, .str w], ?_, w, hw, rfl⟩
    have da := ni ha
    have db := ni hb
    simp only [words, List.mem_cons, List.not_mem_nil, or_false, forall_eq_or_imp, forall_eq] at da db
    simp at da db
    simp only [parseRand, hm, hf, List.map_cons, List.map_nil]
    rcases hw with rfl | rfl
    · simp [hasWord_cons, hasWord_nil, ints, toInt, ha, hb, da, db, pure, bind, Except.pure, Except.bind]
    · simp [hasWord_cons, hasWord_nil, ints, toInt, ha, hb, da, db, pure, bind, Except.pure, Except.bind]
  | grid g =>
    obtain ⟨ss, hf, hno, rfl⟩ := h
    have hg : element L "grid".toList = .str "grid".toList := element_word hL (by simp [words]) (hst _ (by rw [hf]; simp))
    have hnw : ∀ w ∈ words, Val.str w ∉ ss.map (element L) := by
      intro w hw hin
      obtain ⟨s, hs, e⟩ := List.mem_map.mp hin
      refine element_ne_word hL (hst s (by rw [hf]; simp [hs])) ?_ e
      rintro rfl
      exact hno s hs hw
    refine ⟨_, ?_, rfl, hnw⟩
    have nw : ∀ w : String, w.toList ∈ words → w.toList ≠ "grid".toList → hasWord (K := K) w ((ss ++ ["grid".toList]).map Val.str) = false := by
      intro w hw hne
      rw [Bool.eq_false_iff, Ne, hasWord_iff]
      intro hin
      obtain ⟨s, hs, e⟩ := List.mem_map.mp hin
      injection e with e
      rcases List.mem_append.mp hs with h | h
      · exact hno s h (e ▸ hw)
      · rw [List.mem_singleton] at h; exact hne (by rw [← e, h])
    have hgr : hasWord (K := K) "grid" ((ss ++ ["grid".toList]).map Val.str) = true := by rw [hasWord_iff]; simp
    simp only [parseRand, hm, hf]
    rw [nw "u" (by simp [words]) (by decide), nw "float" (by simp [words]) (by decide)]
    simp only [Bool.or_self, Bool.false_eq_true, if_false]
    simp only [pure, bind, Except.pure, Except.bind]
    rw [nw "n" (by simp [words]) (by decide), nw "randint" (by simp [words]) (by decide), nw "int" (by simp [words]) (by decide)]
    simp only [Bool.or_self, Bool.false_eq_true, if_false]
    rw [hgr, if_pos rfl, gridEntries_map, List.map_append, List.map_cons, List.map_nil, hg]

theorem samples_parsed {L : Lib K} {d : Draw K} (hd : 0 ≤ d.u ∧ d.u ≤ 1) {l : List (Val K)} {k : Kind K} (h : Parsed l k) (hk : k.Ok) : ∃ v, samples L d l = .ok [v] ∧ Fits v k := by
  cases k with
  | uniform a b =>
    obtain ⟨w, hw, rfl⟩ := h
    refine ⟨.num (a + (b - a) * d.u), ?_, _, rfl, ?_, ?_⟩
    · rcases hw with rfl | rfl <;> simp [samples, hasWord_cons, hasWord_nil, optSample, sUniform, pure, bind, Except.pure, Except.bind, Except.map]
    · rcases le_total a b with h | h
      · rw [min_eq_left h]; nlinarith [mul_nonneg (sub_nonneg.mpr h) hd.1]
      · rw [min_eq_right h]; nlinarith [mul_nonneg (sub_nonneg.mpr h) (sub_nonneg.mpr hd.2)]
    · rcases le_total a b with h | h
      · rw [max_eq_right h]; nlinarith [mul_nonneg (sub_nonneg.mpr h) (sub_nonneg.mpr hd.2)]
      · rw [max_eq_left h]; nlinarith [mul_nonneg (sub_nonneg.mpr h) hd.1]
  | normal a b =>
    have h : l = [.num a, .num b, .str "n".toList] := h
    subst h
    exact ⟨.num (a + d.g * b), by simp [samples, hasWord_cons, hasWord_nil, optSample, sGauss, pure, bind, Except.pure, Except.bind, Except.map], _, rfl⟩
  | int a b =>
    obtain ⟨w, hw, rfl⟩ := h
    have hab : a ≤ b := hk
    have h1 : d.r % ((b - a).toNat + 1) < (b - a).toNat + 1 := Nat.mod_lt _ (by omega)
    refine ⟨.int (a + (d.r % ((b - a).toNat + 1) : ℕ)), ?_, _, rfl, ?_, ?_⟩
    · rcases hw with rfl | rfl <;> simp [samples, hasWord_cons, hasWord_nil, optSample, sInt, hab, pure, bind, Except.pure, Except.bind, Except.map]
    · omega
    · omega
  | grid g =>
    obtain ⟨rfl, hno⟩ := h
    have hng : Val.str "grid".toList ∉ g := hno _ (by simp [words])
    have he : (g ++ [Val.str "grid".toList]).erase (.str "grid".toList) = g := by
      rw [List.erase_append_right _ hng]; simp
    have hpos : 0 < g.length := List.length_pos_iff.mpr hk
    have hlt := Nat.mod_lt d.r hpos
    refine ⟨g[d.r % g.length], ?_, List.getElem_mem _⟩
    have nw : ∀ w : String, w.toList ∈ words → w.toList ≠ "grid".toList → hasWord (K := K) w (g ++ [.str "grid".toList]) = false := by
      intro w hw hne
      rw [Bool.eq_false_iff, Ne, hasWord_iff]
      intro hin
      rcases List.mem_append.mp hin with h | h
      · exact hno _ hw h
      · rw [List.mem_singleton] at h; injection h with h; exact hne h
    have hgr : hasWord (K := K) "grid" (g ++ [.str "grid".toList]) = true := by rw [hasWord_iff]; simp
    have hs : sGrid d (g ++ [.str "grid".toList]) = .ok g[d.r % g.length] := by
      simp only [sGrid, he]
      rw [List.getElem?_eq_getElem hlt]
    unfold samples
    rw [nw "u" (by simp [words]) (by decide), nw "float" (by simp [words]) (by decide), nw "n" (by simp [words]) (by decide),
      nw "randint" (by simp [words]) (by decide), nw "int" (by simp [words]) (by decide), hgr, hs]
    rfl

theorem sampleCase_parsed {L : Lib K} {d : ℕ → Draw K} (hd : ∀ j, 0 ≤ (d j).u ∧ (d j).u ≤ 1) : ∀ {ls : List (List (Val K))} {ks : List (Kind K)} (j : ℕ), List.Forall₂ Parsed ls ks →
    (∀ k ∈ ks, k.Ok) → ∃ c, sampleCase L d j ls = .ok c ∧ List.Forall₂ Fits c ks
  | [], _, j, h, _ => by cases h; exact ⟨[], rfl, .nil⟩
  | l :: ls, k :: ks, j, .cons h1 h2, hk => by
    obtain ⟨v, hv, hf⟩ := samples_parsed (L := L) (hd j) h1 (hk k (by simp))
    obtain ⟨c, hc, hf'⟩ := sampleCase_parsed (L := L) hd (j + 1) h2 fun x hx => hk x (by simp [hx])
    refine ⟨v :: c, ?_, .cons hf hf'⟩
    simp only [sampleCase, hv, hc]; rfl

theorem mapM_ok {α β : Type} {f : α → Py β} {P : β → Prop} : ∀ {l : List α}, (∀ a ∈ l, ∃ b, f a = .ok b ∧ P b) → ∃ bs, l.mapM f = .ok bs ∧ bs.length = l.length ∧ ∀ b ∈ bs, P b
  | [], _ => ⟨[], rfl, rfl, by simp⟩
  | a :: l, h => by
    obtain ⟨b, hb, hP⟩ := h a (by simp)
    obtain ⟨bs, h1, h2, h3⟩ := mapM_ok (f := f) (P := P) (l := l) fun x hx => h x (by simp [hx])
    refine ⟨b :: bs, ?_, by simp [h2], ?_⟩
    · rw [List.mapM_cons, hb, h1]; rfl
    · intro x hx
      rcases List.mem_cons.mp hx with rfl | hx
      exacts [hP, h3 x hx]

theorem randParams_ok {L : Lib K} (hL : L.Sane) {t : Str} : ∀ {block : List (Str × Str)} {ks : List (Kind K)}, List.Forall₂ (fun e k => Written L e.2 k) (params block) ks →
    (∀ e ∈ params block, e.1 <:+: t) → ∃ ps, randParams L t block = .ok ps ∧ ps.map Prod.fst = (params block).map Prod.fst ∧ List.Forall₂ Parsed (ps.map Prod.snd) ks
  | [], ks, h, _ => by
    have : ks = [] := by cases h; rfl
    subst this
    exact ⟨[], rfl, rfl, .nil⟩
  | (k, v) :: rest, ks, h, ht => by
    rw [randParams]
    by_cases hk : isParam k
    · have hp : params ((k, v) :: rest) = (k, v) :: params rest := by simp [params, hk]
      rw [hp] at h ht ⊢
      cases h with
      | cons h1 h2 =>
        obtain ⟨ps, e1, e2, e3⟩ := randParams_ok hL h2 fun e he => ht e (by simp [he])
        obtain ⟨l, hl, hl'⟩ := parseRand_written hL h1
        refine ⟨(k, l) :: ps, ?_, by simp [e2], .cons hl' e3⟩
        rw [if_pos hk, if_pos (ht (k, v) (by simp)), hl, e1]; rfl
    · have hp : params ((k, v) :: rest) = params rest := by simp [params, hk]
      rw [hp] at h ht ⊢
      rw [if_neg hk]
      exact randParams_ok hL h ht

/-- The random search: when every tuned name occurs in the template and every value list is written as documented, there are exactly
`ncases` cases, each with one value for every name, at the name's own place, from the name's own distribution. -/
theorem C122_random {L : Lib K} (hL : L.Sane) {t : Str} {block : List (Str × Str)} {ks : List (Kind K)} (hw : List.Forall₂ (fun e k => Written L e.2 k) (params block) ks)
    (hk : ∀ k ∈ ks, k.Ok) (ht : ∀ e ∈ params block, e.1 <:+: t) {d : ℕ → ℕ → Draw K} (hd : ∀ i j, 0 ≤ (d i j).u ∧ (d i j).u ≤ 1) (ncases : ℕ) :
    ∃ cs, randAll L t block ncases d = .ok ((params block).map Prod.fst, cs) ∧ cs.length = ncases ∧ ∀ c ∈ cs, List.Forall₂ Fits c ks := by
  obtain ⟨ps, h1, h2, h3⟩ := randParams_ok hL hw ht
  obtain ⟨cs, c1, c2, c3⟩ := mapM_ok (f := fun i => sampleCase L (d i) 0 (ps.map Prod.snd)) (P := fun c => List.Forall₂ Fits c ks) (l := List.range ncases)
    (fun i _ => sampleCase_parsed (hd i) 0 h3 hk)
  refine ⟨cs, ?_, by rw [c2, List.length_range], c3⟩
  unfold randAll randCases
  rw [h1]
  show Except.bind ((List.range ncases).mapM _) _ = _
  rw [c1, ← h2]; rfl

/-- Every integer of the range and every choice of a grid is drawn by some draw, and nothing of a uniform range but its upper end is out of reach. -/
theorem C122_reach (L : Lib K) : (∀ (a b z : ℤ) (w : Str), (w = "int".toList ∨ w = "randint".toList) → a ≤ z → z ≤ b → ∃ r, ∀ u g, samples L ⟨u, g, r⟩ [.int a, .int b, .str w] = .ok [.int z]) ∧
    (∀ (l : List (Val K)) (v : Val K), Parsed (l ++ [.str "grid".toList]) (.grid l) → v ∈ l → ∃ r, ∀ u g, samples L ⟨u, g, r⟩ (l ++ [.str "grid".toList]) = .ok [v]) ∧
    ∀ (a b x : K), a ≤ x → x < b → ∃ u, 0 ≤ u ∧ u < 1 ∧ ∀ g r, samples L ⟨u, g, r⟩ [.num a, .num b, .str "u".toList] = .ok [.num x] := by
  refine ⟨?_, ?_, ?_⟩
  · intro a b z w hw h1 h2
    refine ⟨(z - a).toNat, fun u g => ?_⟩
    have hab : a ≤ b := by omega
    have hm : (z - a).toNat % ((b - a).toNat + 1) = (z - a).toNat := Nat.mod_eq_of_lt (by omega)
    have hz : a + max (z - a) 0 = z := by omega
    rcases hw with rfl | rfl <;>
      simp [samples, hasWord_cons, hasWord_nil, optSample, sInt, hab, hm, hz, pure, bind, Except.pure, Except.bind, Except.map]
  · intro l v hp hv
    obtain ⟨i, hi, rfl⟩ := List.getElem_of_mem hv
    refine ⟨i, fun u g => ?_⟩
    have hno := hp.2
    have hng : Val.str "grid".toList ∉ l := hno _ (by simp [words])
    have he : (l ++ [Val.str "grid".toList]).erase (.str "grid".toList) = l := by
      rw [List.erase_append_right _ hng]; simp
    have nw : ∀ w : String, w.toList ∈ words → w.toList ≠ "grid".toList → hasWord (K := K) w (l ++ [.str "grid".toList]) = false := by
      intro w hw hne
      rw [Bool.eq_false_iff, Ne, hasWord_iff]
      intro hin
      rcases List.mem_append.mp hin with h | h
      · exact hno _ hw h
      · rw [List.mem_singleton] at h; injection h with h; exact hne h
    have hgr : hasWord (K := K) "grid" (l ++ [.str "grid".toList]) = true := by rw [hasWord_iff]; simp
    have hs : sGrid ⟨u, g, i⟩ (l ++ [.str "grid".toList]) = .ok l[i] := by
      simp only [sGrid, he]
      rw [Nat.mod_eq_of_lt hi, List.getElem?_eq_getElem hi]
    unfold samples
    rw [nw "u" (by simp [words]) (by decide), nw "float" (by simp [words]) (by decide), nw "n" (by simp [words]) (by decide),
      nw "randint" (by simp [words]) (by decide), nw "int" (by simp [words]) (by decide), hgr, hs]
    rfl
  · intro a b x h1 h2
    have hb : 0 < b - a := by linarith
    refine ⟨(x - a) / (b - a), div_nonneg (by linarith) hb.le, (div_lt_one hb).mpr (by linarith), fun g r => ?_⟩
    have : a + (b - a) * ((x - a) / (b - a)) = x := by rw [mul_div_cancel₀ _ (ne_of_gt hb)]; ring
    simp [samples, hasWord_cons, hasWord_nil, optSample, sUniform, this, pure, bind, Except.pure, Except.bind, Except.map]

/-- Defect: a value list without a keyword gives no sample at all, so that with one sample for each other name the case is one value
short and no file is written. -/
theorem C122_no_keyword {L : Lib K} {d : ℕ → Draw K} {l : List (Val K)} (hl : ∀ w ∈ words, Val.str w ∉ l) (j : ℕ) (ls : List (List (Val K))) :
    sampleCase L d j (l :: ls) = sampleCase L d (j + 1) ls := by
  have nw : ∀ w : String, w.toList ∈ words → hasWord (K := K) w l = false := by
    intro w hw
    rw [Bool.eq_false_iff, Ne, hasWord_iff]
    exact hl _ hw
  have : samples L (d j) l = .ok [] := by
    unfold samples
    rw [nw "u" (by simp [words]), nw "float" (by simp [words]), nw "n" (by simp [words]), nw "randint" (by simp [words]), nw "int" (by simp [words]), nw "grid" (by simp [words])]
    rfl
  rw [sampleCase, this]
  cases sampleCase L d (j + 1) ls <;> rfl

theorem exSane : exLib.Sane := by unfold Lib.Sane; decide +kernel

/-- A name with several keywords gets several values, in the order uniform, normal, integer, choice, whatever the order of the keywords. -/
theorem C122_order {L : Lib K} {d : Draw K} {l : List (Val K)} {a b c e : Val K} (ha : sUniform L d l = .ok a) (hb : sGauss L d l = .ok b) (hc : sInt d l = .ok c) (he : sGrid d l = .ok e) :
    samples L d l = .ok ((if hasWord "u" l ∨ hasWord "float" l then [a] else []) ++ (if hasWord "n" l then [b] else []) ++ (if hasWord "randint" l ∨ hasWord "int" l then [c] else []) ++ (if hasWord "grid" l then [e] else [])) := by
  unfold samples
  rw [ha, hb, hc, he]
  unfold optSample
  cases hasWord "u" l <;> cases hasWord "float" l <;> cases hasWord "n" l <;> cases hasWord "randint" l <;> cases hasWord "int" l <;> cases hasWord "grid" l <;> rfl

/-- Defect: a name without a keyword takes the value of the next name; here `{y}` has two keywords and fills the gap, and `{x}`, meant
to be 1 or 2, becomes 0.5, a sample of `{y}`. -/
theorem C122_shift : ((randAll exLib "{x} {y}".toList [("{x}".toList, "1, 2".toList), ("{y}".toList, "0, 1, u, n".toList)] 1 (fun _ _ => ⟨1 / 2, 1, 0⟩)) >>= genFiles exLib "{x} {y}".toList) =
    .ok ["0.5 1.0".toList] := by decide +kernel

example : ((randAll exLib "{x} {y}".toList [("{x}".toList, "1, 2".toList), ("{y}".toList, "0, 1, u".toList)] 1 (fun _ _ => ⟨1 / 2, 1, 0⟩)) >>= genFiles exLib "{x} {y}".toList) =
    .error .indexError := by decide +kernel

example : ((randAll exLib "{x} {y} {z}".toList [("{x}".toList, "1, 2, int".toList), ("{y}".toList, "0, 1, u".toList), ("{z}".toList, "a, 0.5, grid".toList)] 2 (fun i _ => ⟨1 / 2, 1, i⟩)) >>=
    genFiles exLib "{x} {y} {z}".toList) = .ok ["1 0.5 a".toList, "2 0.5 0.5".toList] := by decide +kernel

example : Written exLib "1, 2, int".toList (.int 1 2) ∧ Written exLib "0, 1, u".toList (.uniform 0 1) ∧ Written exLib "a, 0.5, grid".toList (.grid [.str ['a'], .num (1 / 2)]) := by
  refine ⟨⟨['1'], ['2'], "int".toList, by decide +kernel, Or.inl rfl, by decide +kernel, by decide +kernel⟩, ⟨['0'], ['1'], "u".toList, by decide +kernel, Or.inl rfl, by decide +kernel, by decide +kernel⟩,
    ⟨[['a'], "0.5".toList], by decide +kernel, by decide +kernel, by decide +kernel⟩⟩

/-! ### Results -/

theorem maxOf_spec : ∀ (m : K) (l : List K), maxOf m l ∈ m :: l ∧ ∀ x ∈ m :: l, x ≤ maxOf m l
  | m, [] => ⟨by simp [maxOf], by simp [maxOf]⟩
  | m, y :: l => by
    rw [maxOf]
    split
    · rename_i h
      obtain ⟨h1, h2⟩ := maxOf_spec y l
      refine ⟨by simp [h1], ?_⟩
      intro x hx
      rcases List.mem_cons.mp hx with rfl | hx
      · exact le_trans h.le (h2 y (by simp))
      · exact h2 x hx
    · rename_i h
      obtain ⟨h1, h2⟩ := maxOf_spec m l
      refine ⟨?_, ?_⟩
      · rcases List.mem_cons.mp h1 with h1 | h1
        · rw [h1]; simp
        · simp [h1]
      · intro x hx
        rcases List.mem_cons.mp hx with rfl | hx
        · exact h2 x (by simp)
        · rcases List.mem_cons.mp hx with rfl | hx
          · exact le_trans (not_lt.mp h) (h2 m (by simp))
          · exact h2 x (by simp [hx])

/-- A case gives a line exactly when its run left one `*_out.csv` file with at least one reward; the line has its number and values, the
greatest reward, and the mean of the last `n` rewards (of all when `n` is 0 or exceeds their number). -/
theorem C122_row {n : ℕ} {logs : Option (List (List K))} {x : ℕ} {vals : List (Val K)} :
    ((∃ row, caseObject n logs x vals = some row) ↔ ∃ r, logs = some [r] ∧ r ≠ []) ∧
    ∀ row r, caseObject n logs x vals = some row → logs = some [r] → row.caseid = x ∧ row.vals = vals ∧ (row.max ∈ r ∧ ∀ y ∈ r, y ≤ row.max) ∧
      (n = 0 ∨ r.length ≤ n → row.mean = r.sum / r.length) ∧ ∀ a b : List K, r = a ++ b → n = b.length → n ≠ 0 → row.mean = b.sum / n := by
  have key : ∀ row r, caseObject n logs x vals = some row → logs = some [r] → r ≠ [] ∧ row = { caseid := x, vals := vals, mean := meanOf (lastN n r), max := maxOf (r.headD 0) r.tail } := by
    intro row r h hl
    subst hl
    cases r with
    | nil => simp [caseObject] at h
    | cons y ys =>
      simp only [caseObject, Option.some.injEq] at h
      exact ⟨by simp, h.symm⟩
  refine ⟨⟨?_, ?_⟩, ?_⟩
  · rintro ⟨row, h⟩
    unfold caseObject at h
    split at h
    · exact ⟨_, rfl, by simp⟩
    · cases h
  · rintro ⟨r, rfl, hr⟩
    cases r with
    | nil => exact absurd rfl hr
    | cons y ys => exact ⟨_, rfl⟩
  · intro row r h hl
    obtain ⟨hr, rfl⟩ := key row r h hl
    refine ⟨rfl, rfl, ?_, ?_, ?_⟩
    · cases r with
      | nil => exact absurd rfl hr
      | cons y ys => exact maxOf_spec y ys
    · intro hn
      show meanOf (lastN n r) = _
      unfold lastN meanOf
      split
      · rfl
      · rename_i h0
        have : r.length - n = 0 := by omega
        rw [this, List.drop_zero]
    · intro a b e hn h0
      show meanOf (lastN n r) = _
      unfold lastN meanOf
      rw [if_neg h0, e, show (a ++ b).length - n = a.length by simp; omega, List.drop_left, hn]

/-- Case `i` (the first is 1) has the line made of the rewards its own run left, with its own number and values. -/
theorem C122_results (n : ℕ) (logs : ℕ → Option (List (List K))) (cs : List (List (Val K))) (i : ℕ) : (results n logs cs)[i]? = (cs[i]?).map fun vals => caseObject n (logs (i + 1)) (i + 1) vals := by
  simp [results]

/-- The lines of the cases that succeeded, in the order of the cases. -/
def successes (n : ℕ) (logs : ℕ → Option (List (List K))) (cs : List (List (Val K))) : List (Row K) := (results n logs cs).filterMap id

theorem filter_none_length {α : Type} : ∀ l : List (Option α), (l.filter fun r => r.isNone).length + (l.filterMap id).length = l.length
  | [] => rfl
  | none :: l => by
    have := filter_none_length l
    rw [List.filter_cons_of_pos (by rfl), List.filterMap_cons_none (by rfl), List.length_cons, List.length_cons]; omega
  | some a :: l => by
    have := filter_none_length l
    rw [List.filter_cons_of_neg (by simp), List.filterMap_cons_some (b := a) (by rfl), List.length_cons, List.length_cons]; omega

theorem results_ids (n : ℕ) (logs : ℕ → Option (List (List K))) (cs : List (List (Val K))) :
    ∀ (i : ℕ) (row : Row K), (results n logs cs)[i]? = some (some row) → row.caseid = i + 1 ∧ cs[i]? = some row.vals := by
  intro i row h
  unfold results at h
  rw [List.getElem?_mapIdx] at h
  cases hc : cs[i]? with
  | none => rw [hc] at h; simp at h
  | some c =>
    rw [hc] at h
    simp only [Option.map_some, Option.some.injEq] at h
    unfold caseObject at h
    split at h
    · simp only [Option.some.injEq] at h
      subst h
      exact ⟨rfl, rfl⟩
    · cases h

theorem filterMap_sorted {n : ℕ} : ∀ (l : List (Option (Row K))) (k : ℕ), (∀ (i : ℕ) (row : Row K), l[i]? = some (some row) → row.caseid = k + i + 1) →
    ((l.filterMap id).Pairwise fun a b => a.caseid < b.caseid) ∧ ∀ r ∈ l.filterMap id, k < r.caseid
  | [], k, _ => ⟨by simp, by simp⟩
  | o :: l, k, h => by
    obtain ⟨h1, h2⟩ := filterMap_sorted (n := n) l (k + 1) fun i row hi => by
      have := h (i + 1) row (by simpa using hi); omega
    cases o with
    | none => exact ⟨by simpa using h1, fun r hr => by have := h2 r (by simpa using hr); omega⟩
    | some row =>
      have h0 := h 0 row (by simp)
      refine ⟨?_, ?_⟩
      · rw [List.filterMap_cons_some (b := row) (by rfl), List.pairwise_cons]
        exact ⟨fun r hr => by have := h2 r hr; show row.caseid < _; omega, h1⟩
      · intro r hr
        rw [List.filterMap_cons_some (b := row) (by rfl)] at hr
        rcases List.mem_cons.mp hr with rfl | hr
        · omega
        · have := h2 r hr; omega

/-- What `sort_values` promises. -/
def Asc (asc : (Row K → ℕ) → List (Row K) → List (Row K)) : Prop := ∀ f l, (asc f l).Perm l ∧ (asc f l).Pairwise fun a b => f a ≤ f b
def Desc (desc : (Row K → K) → List (Row K) → List (Row K)) : Prop := ∀ f l, (desc f l).Perm l ∧ (desc f l).Pairwise fun a b => f b ≤ f a

/-- A ranking: the `min 20` best of the successful cases, best first, and none of the others is better than any of these. -/
def Ranking (key : Row K → K) (all best : List (Row K)) : Prop :=
  ∃ rest, (best ++ rest).Perm all ∧ best.length = min 20 all.length ∧ best.Pairwise (fun a b => key b ≤ key a) ∧ ∀ a ∈ best, ∀ b ∈ rest, key b ≤ key a

/-- The end of a search: in whatever order the pool has written the lines, `tune.csv` ends up with exactly the successful cases in case
order, every case is counted as a line or as failed, and the two tables of the summary are rankings by mean and by greatest reward. -/
theorem C122_run {asc : (Row K → ℕ) → List (Row K) → List (Row K)} {desc : (Row K → K) → List (Row K) → List (Row K)} (ha : Asc asc) (hd : Desc desc) (n : ℕ)
    (logs : ℕ → Option (List (List K))) (cs : List (List (Val K))) {file : List (Row K)} (hf : file.Perm (successes n logs cs)) :
    (runCases asc desc n logs cs file).1 = successes n logs cs ∧
    (runCases asc desc n logs cs file).2.cases = cs.length ∧
    (runCases asc desc n logs cs file).2.failed + (successes n logs cs).length = cs.length ∧
    Ranking (·.mean) (successes n logs cs) (runCases asc desc n logs cs file).2.byMean ∧
    Ranking (·.max) (successes n logs cs) (runCases asc desc n logs cs file).2.byMax := by
  have hs := (filterMap_sorted (n := n) (results n logs cs) 0 fun i row hi => by have := (results_ids n logs cs i row hi).1; omega).1
  have rank : ∀ key : Row K → K, Ranking key (successes n logs cs) (if (desc key file).length < 20 then (desc key file).take (desc key file).length else (desc key file).take 20) := by
    intro key
    obtain ⟨hp, hpw⟩ := hd key file
    have e : (if (desc key file).length < 20 then (desc key file).take (desc key file).length else (desc key file).take 20) = (desc key file).take 20 := by
      split
      · rw [List.take_length, List.take_of_length_le (by omega)]
      · rfl
    rw [e]
    rw [← List.take_append_drop 20 (desc key file), List.pairwise_append] at hpw
    exact ⟨(desc key file).drop 20, by rw [List.take_append_drop]; exact hp.trans hf, by rw [List.length_take, hp.length_eq, hf.length_eq], hpw.1, hpw.2.2⟩
  refine ⟨?_, rfl, ?_, rank _, rank _⟩
  · obtain ⟨hp, hpw⟩ := ha (·.caseid) file
    have hp' := hp.trans hf
    refine List.Perm.eq_of_pairwise (le := fun a b : Row K => a.caseid ≤ b.caseid) ?_ hpw (hs.imp fun h => h.le) hp'
    intro a b h1 h2 hab hba
    have heq : a.caseid = b.caseid := le_antisymm hab hba
    have h1 : a ∈ successes n logs cs := hp'.subset h1
    by_contra hne
    have hset : (successes n logs cs).Pairwise (fun a b : Row K => a.caseid ≠ b.caseid) := hs.imp fun h => h.ne
    have : Std.Symm (fun a b : Row K => a.caseid ≠ b.caseid) := ⟨fun _ _ h => h.symm⟩
    exact hset.forall h1 h2 hne heq
  · have := filter_none_length (results n logs cs)
    have hl : (results n logs cs).length = cs.length := by simp [results]
    rw [hl] at this
    exact this

example : ((runCases (K := ℚ) (fun f l => l.insertionSort fun a b => f a ≤ f b) (fun f l => l.insertionSort fun a b => f b ≤ f a) 2
    (fun x => if x = 1 then some [[1, 2, 4]] else if x = 2 then some [] else some [[9, 1, 2]]) [[.int 5], [.int 6], [.int 7]]
    [⟨3, [.int 7], 3 / 2, 9⟩, ⟨1, [.int 5], 3, 4⟩]).2.byMax.map (·.caseid)) = [3, 1] := by decide +kernel

example : successes (K := ℚ) 2 (fun x => if x = 1 then some [[1, 2, 4]] else if x = 2 then some [] else some [[9, 1, 2]]) [[.int 5], [.int 6], [.int 7]] =
    [⟨1, [.int 5], 3, 4⟩, ⟨3, [.int 7], 3 / 2, 9⟩] := by decide +kernel

end

end Neorl.TuneFile
