import Verif.SA
import Mathlib.Data.List.Perm.Basic

/-!
# Tabu search

Model of `neorl/evolu/ts.py`.  TS minimises: `fit` below is the internal fitness (`-fit` of the user in `mode='max'`, lines 56-63),
a function of the encoded vector.  The dictionary `tabu_structure` is a list indexed by the position of the move in insertion order.
-/

set_option linter.unusedSectionVars false
set_option linter.unusedVariables false

namespace Neorl.TS

section
variable {K : Type} [Field K] [LinearOrder K] [IsStrictOrderedRing K] [FloorRing K]

/-- Arguments, `neorl/evolu/ts.py` lines 48-93 and 218.  `big` is the literal `1e11` of line 289. -/
structure Conf (K : Type) where
  S : Space K
  swap : Bool
  tenure : ℕ
  w : K
  big : K
  ngen : ℕ

/-- `UpdateTabu` in mode `swap`, lines 204-208: exchange the entries holding the values `i` and `j` (first occurrences); `list.index`
raises `ValueError` for a missing value. -/
def swapVals (pos : List K) (i j : K) : Py (List K) :=
  match pos.idxOf? i, pos.idxOf? j with
  | some a, some b =>
    match pos[a]?, pos[b]? with
    | some x, some y => .ok ((pos.set a y).set b x)
    | _, _ => .error .indexError
  | _, _ => .error .valueError

/-- `UpdateTabu` in mode `perturb`, lines 209-213: coordinate `i` is redrawn between its bounds. -/
def perturb (S : Space K) (pos : List K) (i : ℕ) (d : K × ℕ) : Py (List K) :=
  match S.types[i]?, S.bounds[i]? with
  | some t, some b => .ok (pos.set i (SA.sampler t b d))
  | _, _ => .error .indexError

/-- `combinations(range(1, n + 1), 2)`, line 262: the keys of `tabu_structure` in mode `swap`, in order. -/
def swapMoves (n : ℕ) : List (ℕ × ℕ) :=
  (List.range n).flatMap fun i => (List.range (n - 1 - i)).map fun k => (i + 1, i + 2 + k)

/-- The candidates of one generation in the order of the moves, lines 276-282. -/
def candidates (c : Conf K) (d : ℕ → K × ℕ) (pos : List K) : Py (List (List K)) :=
  if c.swap then mapRows (fun _ (m : ℕ × ℕ) => swapVals pos (m.1 : K) (m.2 : K)) 0 (swapMoves c.S.bounds.length)
  else mapRows (fun _ i => perturb c.S pos i (d i)) 0 (List.range c.S.bounds.length)

/-- `min(..., key=...)` / `np.argmin`: first index of the least entry. -/
def argminFrom : ℕ → ℕ × WithTop K → List (WithTop K) → ℕ × WithTop K
  | _, b, [] => b
  | i, b, v :: vs => argminFrom (i + 1) (if v < b.2 then (i, v) else b) vs

/-- `none` for the `ValueError` of `min` on an empty dictionary. -/
def argmin : List (WithTop K) → Option ℕ
  | [] => none
  | v :: vs => some (argminFrom 1 (0, v) vs).1

/-- The `while True` loop, lines 285-324: `none` is the `break` of line 290, `some (b, aspired)` the move made.  `fuel` bounds the number
of rounds; running out of it is the error `recursion`, which `C26_terminates` excludes. -/
def inner (vals : List K) (tabu : List ℕ) (iter : ℕ) (best big : K) : ℕ → List (WithTop K) → Py (Option (ℕ × Bool))
  | 0, _ => .error .recursion
  | n + 1, pens =>
    match argmin pens with
    | none => .error .valueError
    | some b =>
      match pens[b]?, vals[b]?, tabu[b]? with
      | some p, some v, some t =>
        if p > (big : WithTop K) then .ok none
        else if t < iter then .ok (some (b, false))
        else if v < best then .ok (some (b, true))
        else inner vals tabu iter best big n (pens.set b ⊤)
      | _, _, _ => .error .keyError

/-- State between generations; `made` (ghost) lists the moves made as `(iter, move, aspired)`, `visited` (ghost) the positions. -/
structure State (K : Type) where
  pos : List K
  best : List K × K
  tabu : List ℕ
  freq : List ℕ
  iter : ℕ
  global : List K
  locals : List K
  log : List (List K)
  made : List (ℕ × ℕ × Bool)
  visited : List (List K)

/-- Lines 326-346: logger and history. -/
def finish (s : State K) (fitness : K) : State K :=
  let best := if fitness < s.best.2 then (s.pos, fitness) else s.best
  { s with best := best, global := s.global ++ [best.2], locals := s.locals ++ [fitness] }

/-- One generation, lines 269-346. -/
def gen (c : Conf K) (fit : List K → K) (d : ℕ → K × ℕ) (s : State K) : Py (State K) :=
  match candidates c d s.pos with
  | .error e => .error e
  | .ok cands =>
    let vals := cands.map (fun x => fit (c.S.clip x))
    let pens := (vals.zip s.freq).map (fun p : K × ℕ => ((p.1 + (p.2 : K) * c.w : K) : WithTop K))
    let log := s.log ++ cands.map c.S.clip
    match inner vals s.tabu s.iter s.best.2 c.big (pens.length + 1) pens with
    | .error e => .error e
    | .ok none =>
      match vals.getLast? with
      | none => .error .valueError
      | some v => .ok (finish { s with log := log, visited := s.visited ++ [s.pos] } v)
    | .ok (some (b, false)) =>
      match cands[b]?, vals[b]? with
      | some x, some v =>
        .ok (finish { s with pos := x, best := if v < s.best.2 then (x, v) else s.best, tabu := s.tabu.set b (s.iter + c.tenure),
                             freq := s.freq.modify b (· + 1), iter := s.iter + 1, log := log, made := s.made ++ [(s.iter, b, false)],
                             visited := s.visited ++ [x] } v)
      | _, _ => .error .indexError
    | .ok (some (b, true)) =>
      match cands[b]? with
      | some x =>
        let v := fit (c.S.clip x)
        .ok (finish { s with pos := x, best := (x, v), freq := s.freq.modify b (· + 1), iter := s.iter + 1, log := log ++ [c.S.clip x],
                             made := s.made ++ [(s.iter, b, true)], visited := s.visited ++ [x] } v)
      | _ => .error .indexError

/-- The number of moves. -/
def nmoves (c : Conf K) : ℕ := if c.swap then (swapMoves c.S.bounds.length).length else c.S.bounds.length

/-- Lines 226-268: evaluation of the starting point, empty memory. -/
def init (c : Conf K) (fit : List K → K) (x0 : List K) : State K :=
  { pos := x0, best := (x0, fit (c.S.clip x0)), tabu := List.replicate (nmoves c) 0, freq := List.replicate (nmoves c) 0, iter := 1,
    global := [], locals := [], log := [c.S.clip x0], made := [], visited := [x0] }

/-- `n` generations. -/
def run (c : Conf K) (fit : List K → K) (dr : ℕ → ℕ → K × ℕ) (x0 : List K) : ℕ → Py (State K)
  | 0 => .ok (init c fit x0)
  | n + 1 =>
    match run c fit dr x0 n with
    | .error e => .error e
    | .ok s => gen c fit (dr n) s

/-- What `evolute` returns, plus the ghost fields. -/
structure Result (K : Type) where
  x : List K
  y : K
  global : List K
  locals : List K
  log : List (List K)
  made : List (ℕ × ℕ × Bool)
  visited : List (List K)

/-- `evolute`, lines 218-370; `m` is `mode == 'min'`.  Without a generation the attribute `fitness_best_correct` does not exist. -/
def evolute (c : Conf K) (m : Bool) (userFit : List K → K) (dr : ℕ → ℕ → K × ℕ) (x0 : List K) : Py (Result K) :=
  if x0.length ≠ c.S.bounds.length then .error .assertion else
  match run c (fun x => sgn m (userFit x)) dr x0 c.ngen with
  | .error e => .error e
  | .ok s =>
    if c.ngen = 0 then .error .unboundLocal else
    .ok { x := s.best.1, y := sgn m s.best.2, global := s.global.map (sgn m), locals := s.locals.map (sgn m), log := s.log, made := s.made,
          visited := s.visited }

/-! ### Lemmas: the candidate loop -/

theorem argminFrom_spec (vs : List (WithTop K)) (i : ℕ) (b : ℕ × WithTop K) (hb : b.1 < i) :
    (argminFrom i b vs).2 ≤ b.2 ∧ (∀ v ∈ vs, (argminFrom i b vs).2 ≤ v) ∧
    (argminFrom i b vs = b ∨ ∃ k, (argminFrom i b vs).1 = i + k ∧ vs[k]? = some (argminFrom i b vs).2 ∧ (argminFrom i b vs).2 < b.2) ∧
    (∀ k v, vs[k]? = some v → v = (argminFrom i b vs).2 → (argminFrom i b vs).1 ≤ i + k) := by
  induction vs generalizing i b with
  | nil => simp [argminFrom]
  | cons v vs ih =>
    simp only [argminFrom]
    by_cases hv : v < b.2
    · obtain ⟨h1, h2, h3, h4⟩ := ih (i + 1) (i, v) (by simp)
      simp only [if_pos hv]
      refine ⟨h1.trans hv.le, ?_, ?_, ?_⟩
      · intro w hw
        rcases List.mem_cons.1 hw with rfl | hw
        · exact h1
        · exact h2 w hw
      · right
        rcases h3 with h3 | ⟨k, e1, e2, e3⟩
        · rw [h3]; exact ⟨0, rfl, rfl, hv⟩
        · exact ⟨k + 1, by rw [e1]; ring, by simpa using e2, e3.trans hv⟩
      · intro k w hk e
        cases k with
        | zero =>
          simp at hk; subst hk
          rcases h3 with h3 | ⟨k, e1, e2, e3⟩
          · rw [h3]; simp
          · rw [← e] at e3; exact absurd e3 (lt_irrefl _)
        | succ k =>
          have := h4 k w (by simpa using hk) e
          omega
    · obtain ⟨h1, h2, h3, h4⟩ := ih (i + 1) b (by omega)
      simp only [if_neg hv]
      refine ⟨h1, ?_, ?_, ?_⟩
      · intro w hw
        rcases List.mem_cons.1 hw with rfl | hw
        · exact h1.trans (not_lt.1 hv)
        · exact h2 w hw
      · rcases h3 with h3 | ⟨k, e1, e2, e3⟩
        · exact Or.inl h3
        · exact Or.inr ⟨k + 1, by rw [e1]; ring, by simpa using e2, e3⟩
      · intro k w hk e
        cases k with
        | zero =>
          simp at hk; subst hk
          rcases h3 with h3 | ⟨k, e1, e2, e3⟩
          · rw [h3]; omega
          · rw [← e] at e3; exact absurd e3 hv
        | succ k =>
          have := h4 k w (by simpa using hk) e
          omega

/-- The index returned is the first one of a least entry. -/
theorem argmin_spec {vs : List (WithTop K)} {b : ℕ} (h : argmin vs = some b) :
    ∃ p, vs[b]? = some p ∧ (∀ v ∈ vs, p ≤ v) ∧ ∀ j, vs[j]? = some p → b ≤ j := by
  cases vs with
  | nil => cases h
  | cons v vs =>
    simp only [argmin, Option.some.injEq] at h
    obtain ⟨h1, h2, h3, h4⟩ := argminFrom_spec vs 1 (0, v) (by simp)
    subst h
    refine ⟨(argminFrom 1 (0, v) vs).2, ?_, ?_, ?_⟩
    · rcases h3 with h3 | ⟨k, e1, e2, e3⟩
      · rw [h3]; rfl
      · rw [e1, Nat.add_comm]; simpa using e2
    · intro w hw
      rcases List.mem_cons.1 hw with rfl | hw
      · exact h1
      · exact h2 w hw
    · intro j hj
      cases j with
      | zero =>
        simp only [List.getElem?_cons_zero, Option.some.injEq] at hj
        rcases h3 with h3 | ⟨k, e1, e2, e3⟩
        · rw [h3]
        · rw [← hj] at e3; exact absurd e3 (lt_irrefl _)
      | succ j =>
        have := h4 j _ (by simpa using hj) rfl
        omega

/-- Specification: move `j` may be made: it is not tabu, or it beats the best fitness (aspiration). -/
def Admissible (vals : List K) (tabu : List ℕ) (iter : ℕ) (best : K) (j : ℕ) : Prop :=
  (∃ t, tabu[j]? = some t ∧ t < iter) ∨ ∃ v, vals[j]? = some v ∧ v < best

/-- What the loop returns, for any amount of fuel exceeding the number of finite entries. -/
theorem inner_spec {vals : List K} {tabu : List ℕ} {iter : ℕ} {best big : K} (n : ℕ) {pens : List (WithTop K)} (hne : pens ≠ [])
    (hv : vals.length = pens.length) (ht : tabu.length = pens.length) (hn : pens.countP (fun p => decide (p ≠ ⊤)) < n) :
    (inner vals tabu iter best big n pens = .ok none ∧
      ∀ j p, pens[j]? = some p → Admissible vals tabu iter best j → (big : WithTop K) < p) ∨
    ∃ b asp p t v, inner vals tabu iter best big n pens = .ok (some (b, asp)) ∧ pens[b]? = some p ∧ p ≤ (big : WithTop K) ∧
      vals[b]? = some v ∧ tabu[b]? = some t ∧ Admissible vals tabu iter best b ∧ (asp = true ↔ ¬ t < iter) ∧
      ∀ j q, pens[j]? = some q → Admissible vals tabu iter best j → p < q ∨ (p = q ∧ b ≤ j) := by
  induction n generalizing pens with
  | zero => omega
  | succ n ih =>
    cases ham : argmin pens with
    | none => cases pens with
      | nil => exact absurd rfl hne
      | cons a l => cases ham
    | some b =>
      obtain ⟨p, hp, hmin, hfirst⟩ := argmin_spec ham
      have hb : b < pens.length := (List.getElem?_eq_some_iff.1 hp).1
      have hvb : vals[b]? = some (vals[b]'(by omega)) := List.getElem?_eq_getElem (by omega)
      have htb : tabu[b]? = some (tabu[b]'(by omega)) := List.getElem?_eq_getElem (by omega)
      set v := vals[b]'(by omega)
      set t := tabu[b]'(by omega)
      simp only [inner, ham, hp, hvb, htb]
      have hle : ∀ j q, pens[j]? = some q → p < q ∨ (p = q ∧ b ≤ j) := by
        intro j q hq
        rcases lt_or_eq_of_le (hmin q (List.mem_of_getElem? hq)) with h | h
        · exact Or.inl h
        · exact Or.inr ⟨h, hfirst j (by rw [h]; exact hq)⟩
      by_cases h1 : p > (big : WithTop K)
      · rw [if_pos h1]
        left
        refine ⟨rfl, ?_⟩
        intro j q hq _
        exact lt_of_lt_of_le h1 (hmin q (List.mem_of_getElem? hq))
      · rw [if_neg h1]
        by_cases h2 : t < iter
        · rw [if_pos h2]
          right
          exact ⟨b, false, p, t, v, rfl, hp, not_lt.1 h1, hvb, htb, Or.inl ⟨t, htb, h2⟩, by simp [h2], fun j q hq _ => hle j q hq⟩
        · rw [if_neg h2]
          by_cases h3 : v < best
          · rw [if_pos h3]
            right
            exact ⟨b, true, p, t, v, rfl, hp, not_lt.1 h1, hvb, htb, Or.inr ⟨v, hvb, h3⟩, by simp [h2], fun j q hq _ => hle j q hq⟩
          · rw [if_neg h3]
            have hpt : p ≠ ⊤ := by
              intro e
              rw [e] at h1
              exact h1 (WithTop.coe_lt_top big)
            have hnb : ∀ j, Admissible vals tabu iter best j → j ≠ b := by
              rintro j (⟨t', e, h⟩ | ⟨v', e, h⟩) rfl
              · have e' := Option.some.inj (htb.symm.trans e); rw [← e'] at h; exact h2 h
              · have e' := Option.some.inj (hvb.symm.trans e); rw [← e'] at h; exact h3 h
            have hcount : (pens.set b ⊤).countP (fun p => decide (p ≠ ⊤)) < n := by
              have : (pens.set b ⊤).countP (fun p => decide (p ≠ ⊤)) + 1 = pens.countP (fun p => decide (p ≠ ⊤)) := by
                rw [List.countP_set hb]
                have e : pens[b] = p := by
                  rw [List.getElem?_eq_getElem hb] at hp; exact Option.some.inj hp
                have hpos : 0 < pens.countP (fun p => decide (p ≠ ⊤)) :=
                  List.countP_pos_iff.2 ⟨p, List.mem_of_getElem? hp, by simpa using hpt⟩
                rw [if_pos (by rw [e]; simpa using hpt), if_neg (by simp)]
                omega
              omega
            have hset : ∀ j, j ≠ b → (pens.set b ⊤)[j]? = pens[j]? := fun j hj => List.getElem?_set_ne (Ne.symm hj)
            have := ih (pens := pens.set b ⊤) (by simpa using hne) (by simpa using hv) (by simpa using ht) hcount
            rcases this with ⟨e, h⟩ | ⟨b', asp, p', t', v', e, e1, e2, e3, e4, e5, e6, e7⟩
            · left
              refine ⟨e, fun j q hq ha => h j q (by rw [hset j (hnb j ha)]; exact hq) ha⟩
            · right
              refine ⟨b', asp, p', t', v', e, by rw [← hset b' (hnb b' e5)]; exact e1, e2, e3, e4, e5, e6, ?_⟩
              intro j q hq ha
              exact e7 j q (by rw [hset j (hnb j ha)]; exact hq) ha

/-! ### Lemmas: one generation -/

theorem length_candidates {c : Conf K} {d : ℕ → K × ℕ} {pos : List K} {cands : List (List K)} (h : candidates c d pos = .ok cands) :
    cands.length = nmoves c := by
  unfold candidates at h
  unfold nmoves
  split at h
  · rename_i hs
    rw [if_pos hs, (mapRows_ok h).1]
  · rename_i hs
    rw [if_neg hs, (mapRows_ok h).1, List.length_range]

/-- The candidates of points of `Good` are in `Good`, which lies in the box. -/
structure CandOK (c : Conf K) (Good : List K → Prop) (d : ℕ → K × ℕ) : Prop where
  box : ∀ x, Good x → InBox c.S.bounds x
  step : ∀ pos cands, Good pos → candidates c d pos = .ok cands → ∀ x ∈ cands, Good x

/-- Everything known about the state after `G` generations, whatever the fitness. -/
structure Inv (c : Conf K) (Good : List K → Prop) (fit : List K → K) (G : ℕ) (s : State K) : Prop where
  pos : Good s.pos
  good : ∀ z ∈ s.log, Good z
  lens : s.tabu.length = nmoves c ∧ s.freq.length = nmoves c
  iter : s.iter = 1 + s.made.length
  iters : s.made.map (fun e => e.1) = (List.range s.made.length).map (fun i => 1 + i)
  freq : ∀ b k : ℕ, s.freq[b]? = some k → k = s.made.countP (fun e => decide (e.2.1 = b))
  tabu : ∀ e ∈ s.made, e.2.1 < nmoves c ∧ (e.2.2 = false → ∃ t, s.tabu[e.2.1]? = some t ∧ e.1 + c.tenure ≤ t)
  tenure : s.made.Pairwise (fun a b => a.2.1 = b.2.1 → a.2.2 = false → b.2.2 = false → a.1 + c.tenure < b.1)
  few : s.made.length ≤ G
  visited : s.visited.length = G + 1 ∧ s.visited.getLast? = some s.pos
  hist : s.global.length = G ∧ s.locals.length = G
  logv : (∀ x ∈ s.visited, x ∈ s.log) ∧ 1 + G * nmoves c ≤ s.log.length ∧ s.log.length ≤ 1 + G * (nmoves c + 1)

theorem init_inv {c : Conf K} {Good : List K → Prop} {fit : List K → K} {x0 : List K} (hb : ∀ x, Good x → InBox c.S.bounds x) (hx : Good x0) :
    Inv c Good fit 0 (init c fit x0) := by
  have e := c.S.clip_of_inBox (hb x0 hx)
  refine ⟨hx, by simp [init, e, hx], by simp [init], by simp [init], by simp [init], ?_, by simp [init], by simp [init], by simp [init], by simp [init],
    by simp [init], by simp [init, e]⟩
  intro b k hk
  simp only [init] at hk ⊢
  have := List.eq_of_mem_replicate (List.mem_of_getElem? hk)
  simpa using this

/-- The state after the move, in the three cases; the selected move is admissible and has the least penalised value. -/
theorem gen_cases {c : Conf K} {Good : List K → Prop} {fit : List K → K} {d : ℕ → K × ℕ} (hd : CandOK c Good d) {G : ℕ} {s s' : State K}
    (hi : Inv c Good fit G s) (h : gen c fit d s = .ok s') :
    ∃ cands, candidates c d s.pos = .ok cands ∧ (∀ x ∈ cands, Good x) ∧ cands.length = nmoves c ∧ cands.map c.S.clip = cands ∧
      ((∃ v, (cands.map fit).getLast? = some v ∧ s' = finish { s with log := s.log ++ cands, visited := s.visited ++ [s.pos] } v ∧
          ∀ (j : ℕ) (x : List K) (k : ℕ), cands[j]? = some x → s.freq[j]? = some k → Admissible (cands.map fit) s.tabu s.iter s.best.2 j → c.big < fit x + (k : K) * c.w) ∨
       (∃ (b : ℕ) (x : List K) (k t : ℕ), cands[b]? = some x ∧ s.freq[b]? = some k ∧ s.tabu[b]? = some t ∧ fit x + (k : K) * c.w ≤ c.big ∧
          Admissible (cands.map fit) s.tabu s.iter s.best.2 b ∧
          (∀ (j : ℕ) (x' : List K) (k' : ℕ), cands[j]? = some x' → s.freq[j]? = some k' → Admissible (cands.map fit) s.tabu s.iter s.best.2 j →
            fit x + (k : K) * c.w ≤ fit x' + (k' : K) * c.w) ∧
          ((t < s.iter ∧ s' = finish { s with pos := x, best := (if fit x < s.best.2 then (x, fit x) else s.best), tabu := s.tabu.set b (s.iter + c.tenure), freq := s.freq.modify b (· + 1), iter := s.iter + 1, log := s.log ++ cands, made := s.made ++ [(s.iter, b, false)], visited := s.visited ++ [x] } (fit x)) ∨
           (¬ t < s.iter ∧ fit x < s.best.2 ∧ s' = finish { s with pos := x, best := (x, fit x), freq := s.freq.modify b (· + 1), iter := s.iter + 1, log := s.log ++ cands ++ [x], made := s.made ++ [(s.iter, b, true)], visited := s.visited ++ [x] } (fit x))))) := by
  unfold gen at h
  split at h
  · cases h
  rename_i cands hc
  have hg := hd.step _ _ hi.pos hc
  have hlen := length_candidates hc
  have hclip : cands.map c.S.clip = cands := by
    conv_rhs => rw [← List.map_id cands]
    exact List.map_congr_left (fun x hx => c.S.clip_of_inBox (hd.box x (hg x hx)))
  have hvals : cands.map (fun x => fit (c.S.clip x)) = cands.map fit :=
    List.map_congr_left (fun x hx => by rw [c.S.clip_of_inBox (hd.box x (hg x hx))])
  simp only [hclip, hvals] at h
  set pens := ((cands.map fit).zip s.freq).map (fun p : K × ℕ => ((p.1 + (p.2 : K) * c.w : K) : WithTop K)) with hpens
  have hpl : pens.length = nmoves c := by simp [hpens, hlen, hi.lens.2]
  refine ⟨cands, hc, hg, hlen, hclip, ?_⟩
  have hpget : ∀ (j : ℕ) (x : List K) (k : ℕ), cands[j]? = some x → s.freq[j]? = some k → pens[j]? = some ((fit x + (k : K) * c.w : K) : WithTop K) := by
    intro j x k h1 h2
    rw [hpens, List.getElem?_map, List.getElem?_zip_eq_some (z := (fit x, k)) |>.2 ⟨by rw [List.getElem?_map, h1]; rfl, h2⟩]
    rfl
  by_cases hne : pens = []
  · rw [hne] at h
    simp only [inner, argmin] at h
    cases h
  have hsp := inner_spec (vals := cands.map fit) (tabu := s.tabu) (iter := s.iter) (best := s.best.2) (big := c.big) (pens.length + 1) hne
    (by simp [hpl, hlen]) (by rw [hpl, hi.lens.1]) (Nat.lt_succ_of_le List.countP_le_length)
  rcases hsp with ⟨e, hsp⟩ | ⟨b, asp, p, t, v, e, e1, e2, e3, e4, e5, e6, e7⟩
  · rw [e] at h
    simp only at h
    split at h
    · cases h
    rename_i v hv
    left
    cases h
    refine ⟨v, hv, rfl, ?_⟩
    intro j x k h1 h2 ha
    have := hsp j _ (hpget j x k h1 h2) ha
    exact_mod_cast this
  · right
    have hbl : b < nmoves c := by rw [← hpl]; exact (List.getElem?_eq_some_iff.1 e1).1
    have hcb : cands[b]? = some (cands[b]'(by omega)) := List.getElem?_eq_getElem (by omega)
    have hfb : s.freq[b]? = some (s.freq[b]'(by rw [hi.lens.2]; exact hbl)) := List.getElem?_eq_getElem (by rw [hi.lens.2]; exact hbl)
    set x := cands[b]'(by omega) with hxdef
    set k := s.freq[b]'(by rw [hi.lens.2]; exact hbl) with hkdef
    have hp := hpget b x k hcb hfb
    rw [e1] at hp
    cases hp
    have hv : v = fit x := by
      rw [List.getElem?_map, hcb] at e3
      simpa using e3.symm
    subst hv
    rw [e] at h
    refine ⟨b, x, k, t, hcb, hfb, e4, by exact_mod_cast e2, e5, ?_, ?_⟩
    · intro j x' k' h1 h2 ha
      rcases e7 j _ (hpget j x' k' h1 h2) ha with h | ⟨h, _⟩
      · exact le_of_lt (by exact_mod_cast h)
      · exact le_of_eq (by exact_mod_cast h)
    · cases asp with
      | false =>
        left
        have ht : t < s.iter := by
          by_contra hcon
          exact absurd (e6.2 hcon) (by simp)
        simp only [hcb, e3] at h
        cases h
        exact ⟨ht, rfl⟩
      | true =>
        right
        have ht := e6.1 rfl
        have hval : fit x < s.best.2 := by
          rcases e5 with ⟨t', h1, h2⟩ | ⟨v', h1, h2⟩
          · rw [e4] at h1; cases h1; exact absurd h2 ht
          · rw [e3] at h1; cases h1; exact h2
        simp only [hcb, c.S.clip_of_inBox (hd.box x (hg x (List.mem_of_getElem? hcb)))] at h
        cases h
        exact ⟨ht, hval, rfl⟩

theorem gen_inv {c : Conf K} {Good : List K → Prop} {fit : List K → K} {d : ℕ → K × ℕ} (hd : CandOK c Good d) {G : ℕ} {s s' : State K}
    (hi : Inv c Good fit G s) (h : gen c fit d s = .ok s') : Inv c Good fit (G + 1) s' := by
  obtain ⟨cands, hc, hg, hlen, hclip, hcases⟩ := gen_cases hd hi h
  have hGl : (G + 1) * nmoves c = G * nmoves c + nmoves c := by ring
  have hGl' : (G + 1) * (nmoves c + 1) = G * (nmoves c + 1) + (nmoves c + 1) := by ring
  obtain ⟨l1, l2, l3⟩ := hi.logv
  have hlogG : ∀ z ∈ s.log ++ cands, Good z := by
    intro z hz
    rcases List.mem_append.1 hz with hz | hz
    · exact hi.good z hz
    · exact hg z hz
  -- facts about a made move
  have hmade : ∀ (b : ℕ) (asp : Bool) (x : List K) (t : ℕ) (tabu' : List ℕ), cands[b]? = some x → s.tabu[b]? = some t → (asp = false → t < s.iter) →
      (asp = false → tabu' = s.tabu.set b (s.iter + c.tenure)) → (asp = true → tabu' = s.tabu) →
      let made := s.made ++ [(s.iter, b, asp)]
      made.map (fun e => e.1) = (List.range made.length).map (fun i => 1 + i) ∧
      (∀ b' k, (s.freq.modify b (· + 1))[b']? = some k → k = made.countP (fun e => decide (e.2.1 = b'))) ∧
      (∀ e ∈ made, e.2.1 < nmoves c ∧ (e.2.2 = false → ∃ t, tabu'[e.2.1]? = some t ∧ e.1 + c.tenure ≤ t)) ∧
      made.Pairwise (fun a b => a.2.1 = b.2.1 → a.2.2 = false → b.2.2 = false → a.1 + c.tenure < b.1) := by
    intro b asp x t tabu' hcb htb hlt hset hset' made
    have hbl : b < nmoves c := by rw [← hlen]; exact (List.getElem?_eq_some_iff.1 hcb).1
    refine ⟨?_, ?_, ?_, ?_⟩
    · simp only [made, List.map_append, hi.iters, List.length_append, List.length_singleton, List.range_succ, hi.iter, List.map_cons, List.map_nil]
    · intro b' k hk
      rw [List.getElem?_modify] at hk
      simp only [made, List.countP_append, List.countP_cons, List.countP_nil]
      cases e : s.freq[b']? with
      | none => rw [e] at hk; simp at hk
      | some k0 =>
        rw [e] at hk
        have := hi.freq b' k0 e
        by_cases hbb : b = b'
        · simp [hbb] at hk ⊢
          omega
        · simp [hbb] at hk ⊢
          omega
    · intro e he
      rcases List.mem_append.1 he with he | he
      · obtain ⟨f1, f2⟩ := hi.tabu e he
        refine ⟨f1, fun h0 => ?_⟩
        obtain ⟨t', g1, g2⟩ := f2 h0
        cases asp with
        | true => rw [hset' rfl]; exact ⟨t', g1, g2⟩
        | false =>
          rw [hset rfl]
          by_cases hbb : b = e.2.1
          · refine ⟨s.iter + c.tenure, ?_, ?_⟩
            · rw [← hbb, List.getElem?_set_self (by rw [hi.lens.1]; exact hbl)]
            · have : t' = t := by rw [← hbb, htb] at g1; exact (Option.some.inj g1).symm
              have := hlt rfl
              omega
          · exact ⟨t', by rw [List.getElem?_set_ne hbb]; exact g1, g2⟩
      · simp only [List.mem_singleton] at he
        subst he
        refine ⟨hbl, fun h0 => ?_⟩
        have h0 : asp = false := h0
        rw [hset h0]
        exact ⟨s.iter + c.tenure, List.getElem?_set_self (by rw [hi.lens.1]; exact hbl), le_rfl⟩
    · refine List.pairwise_append.2 ⟨hi.tenure, List.pairwise_singleton _ _, ?_⟩
      intro a ha b' hb' e1 e2 e3
      simp only [List.mem_singleton] at hb'
      subst hb'
      obtain ⟨t', g1, g2⟩ := (hi.tabu a ha).2 e2
      have e1 : a.2.1 = b := e1
      rw [e1, htb] at g1
      cases g1
      have := hlt e3
      show a.1 + c.tenure < s.iter
      omega
  rcases hcases with ⟨v, hv, rfl, hno⟩ | ⟨b, x, k, t, hcb, hfb, htb, hbig, hadm, hmin, hcase⟩
  · refine ⟨hi.pos, hlogG, hi.lens, hi.iter, hi.iters, hi.freq, hi.tabu, hi.tenure, ?_, ?_, ?_, ?_, ?_, ?_⟩
    · show s.made.length ≤ G + 1
      have := hi.few; omega
    · show (s.visited ++ [s.pos]).length = G + 1 + 1 ∧ (s.visited ++ [s.pos]).getLast? = some s.pos
      simp [hi.visited.1]
    · show (s.global ++ [_]).length = G + 1 ∧ (s.locals ++ [v]).length = G + 1
      simp [hi.hist]
    · intro z hz
      rcases List.mem_append.1 hz with hz | hz
      · exact List.mem_append_left _ (l1 z hz)
      · simp only [List.mem_singleton] at hz
        rw [hz]
        exact List.mem_append_left _ (l1 _ (List.mem_of_getLast? hi.visited.2))
    · show 1 + (G + 1) * nmoves c ≤ (s.log ++ cands).length
      rw [List.length_append, hlen]; omega
    · show (s.log ++ cands).length ≤ 1 + (G + 1) * (nmoves c + 1)
      rw [List.length_append, hlen]; omega
  · have hxc : x ∈ cands := List.mem_of_getElem? hcb
    rcases hcase with ⟨ht, rfl⟩ | ⟨ht, hval, rfl⟩
    · obtain ⟨f1, f2, f3, f4⟩ := hmade b false x t _ hcb htb (fun _ => ht) (fun _ => rfl) (by simp)
      refine ⟨hg x hxc, hlogG, ?_, ?_, f1, f2, f3, f4, ?_, ?_, ?_, ?_, ?_, ?_⟩
      · show (s.tabu.set b _).length = nmoves c ∧ (s.freq.modify b _).length = nmoves c
        simp [hi.lens]
      · show s.iter + 1 = 1 + (s.made ++ [_]).length
        rw [hi.iter, List.length_append]; simp; omega
      · show (s.made ++ [_]).length ≤ G + 1
        have := hi.few; simp; omega
      · show (s.visited ++ [x]).length = G + 1 + 1 ∧ (s.visited ++ [x]).getLast? = some x
        simp [hi.visited.1]
      · show (s.global ++ [_]).length = G + 1 ∧ (s.locals ++ [_]).length = G + 1
        simp [hi.hist]
      · intro z hz
        rcases List.mem_append.1 hz with hz | hz
        · exact List.mem_append_left _ (l1 z hz)
        · simp only [List.mem_singleton] at hz
          rw [hz]
          exact List.mem_append_right _ hxc
      · show 1 + (G + 1) * nmoves c ≤ (s.log ++ cands).length
        rw [List.length_append, hlen]; omega
      · show (s.log ++ cands).length ≤ 1 + (G + 1) * (nmoves c + 1)
        rw [List.length_append, hlen]; omega
    · obtain ⟨f1, f2, f3, f4⟩ := hmade b true x t s.tabu hcb htb (by simp) (by simp) (fun _ => rfl)
      refine ⟨hg x hxc, ?_, ?_, ?_, f1, f2, f3, f4, ?_, ?_, ?_, ?_, ?_, ?_⟩
      · intro z hz
        rcases List.mem_append.1 hz with hz | hz
        · exact hlogG z hz
        · simp only [List.mem_singleton] at hz
          rw [hz]; exact hg x hxc
      · show s.tabu.length = nmoves c ∧ (s.freq.modify b _).length = nmoves c
        simp [hi.lens]
      · show s.iter + 1 = 1 + (s.made ++ [_]).length
        rw [hi.iter, List.length_append]; simp; omega
      · show (s.made ++ [_]).length ≤ G + 1
        have := hi.few; simp; omega
      · show (s.visited ++ [x]).length = G + 1 + 1 ∧ (s.visited ++ [x]).getLast? = some x
        simp [hi.visited.1]
      · show (s.global ++ [_]).length = G + 1 ∧ (s.locals ++ [_]).length = G + 1
        simp [hi.hist]
      · intro z hz
        rcases List.mem_append.1 hz with hz | hz
        · exact List.mem_append_left _ (List.mem_append_left _ (l1 z hz))
        · simp only [List.mem_singleton] at hz
          rw [hz]
          exact List.mem_append_left _ (List.mem_append_right _ hxc)
      · show 1 + (G + 1) * nmoves c ≤ (s.log ++ cands ++ [x]).length
        rw [List.length_append, List.length_append, hlen]; omega
      · show (s.log ++ cands ++ [x]).length ≤ 1 + (G + 1) * (nmoves c + 1)
        rw [List.length_append, List.length_append, hlen]; simp; omega

theorem run_inv {c : Conf K} {Good : List K → Prop} {fit : List K → K} {dr : ℕ → ℕ → K × ℕ} (hd : ∀ n, CandOK c Good (dr n)) {x0 : List K}
    (hx : Good x0) {n : ℕ} {s : State K} (h : run c fit dr x0 n = .ok s) : Inv c Good fit n s := by
  induction n generalizing s with
  | zero => cases h; exact init_inv (hd 0).box hx
  | succ n ih =>
    simp only [run] at h
    split at h
    · cases h
    rename_i s0 h0
    exact gen_inv (hd n) (ih h0) h

/-! ### Lemmas: the best position -/

/-- No penalised value exceeds the cut-off of line 289 during `N` generations. -/
def NoBig (c : Conf K) (Good : List K → Prop) (fit : List K → K) (N : ℕ) : Prop :=
  ∀ x, Good x → ∀ k : ℕ, k ≤ N → fit x + (k : K) * c.w ≤ c.big

structure BInv (c : Conf K) (fit : List K → K) (s : State K) : Prop where
  best : IsBest true fit s.visited s.best.1 s.best.2
  hist : HistBest true fit 1 1 s.visited s.global
  free : c.w = 0 → ∀ z ∈ s.log, s.best.2 ≤ fit z

theorem gen_binv {c : Conf K} {Good : List K → Prop} {fit : List K → K} {d : ℕ → K × ℕ} (hd : CandOK c Good d) {G N : ℕ} (hN : NoBig c Good fit N)
    (hG : G < N) {s s' : State K} (hi : Inv c Good fit G s) (hb : BInv c fit s) (h : gen c fit d s = .ok s') : BInv c fit s' := by
  obtain ⟨cands, hc, hg, hlen, hclip, hcases⟩ := gen_cases hd hi h
  have hvis : ∀ z ∈ s.visited, s.best.2 ≤ fit z := fun z hz => by simpa [NotWorse] using hb.best.2.2 z hz
  have hfreq : ∀ j : ℕ, j < nmoves c → ∃ k, s.freq[j]? = some k ∧ k ≤ N := by
    intro j hj
    refine ⟨s.freq[j]'(by rw [hi.lens.2]; exact hj), List.getElem?_eq_getElem _, ?_⟩
    have := hi.freq j _ (List.getElem?_eq_getElem (by rw [hi.lens.2]; exact hj))
    rw [this]
    have h1 := List.countP_le_length (p := fun e : ℕ × ℕ × Bool => decide (e.2.1 = j)) (l := s.made)
    have := hi.few
    omega
  have hbest : ∀ z ∈ s.visited, s.best.2 ≤ fit z := hvis
  rcases hcases with ⟨v, hv, rfl, hno⟩ | ⟨b, x, k, t, hcb, hfb, htb, hbig, hadm, hmin, hcase⟩
  · -- no admissible move: every candidate is at least as bad as the best
    have hall : ∀ x ∈ cands, s.best.2 ≤ fit x := by
      intro x hx
      obtain ⟨j, hj⟩ := List.mem_iff_getElem?.1 hx
      have hjl : j < nmoves c := by rw [← hlen]; exact (List.getElem?_eq_some_iff.1 hj).1
      obtain ⟨k, hk, hkN⟩ := hfreq j hjl
      by_contra hcon
      have ha : Admissible (cands.map fit) s.tabu s.iter s.best.2 j := Or.inr ⟨fit x, by rw [List.getElem?_map, hj]; rfl, not_le.1 hcon⟩
      exact absurd (hno j x k hj hk ha) (not_lt.2 (hN x (hg x hx) k hkN))
    have hvb : ¬ v < s.best.2 := by
      have := List.mem_of_getLast? hv
      obtain ⟨x, hx, rfl⟩ := List.mem_map.1 this
      exact not_lt.2 (hall x hx)
    have hposm := List.mem_of_getLast? hi.visited.2
    simp only [finish, if_neg hvb]
    have hB : IsBest true fit (s.visited ++ [s.pos]) s.best.1 s.best.2 := by
      refine ⟨List.mem_append_left _ hb.best.1, hb.best.2.1, ?_⟩
      intro z hz
      rcases List.mem_append.1 hz with hz | hz
      · exact hb.best.2.2 z hz
      · simp only [List.mem_singleton] at hz; rw [hz]; exact hb.best.2.2 _ hposm
    refine ⟨hB, hb.hist.step rfl ⟨⟨_, hB.1, hB.2.1.symm⟩, hB.2.2⟩, ?_⟩
    intro hw z hz
    rcases List.mem_append.1 hz with hz | hz
    · exact hb.free hw z hz
    · exact hall z hz
  · have hxc : x ∈ cands := List.mem_of_getElem? hcb
    -- the new best pair
    have key : ∀ (bst : List K × K), bst = (if fit x < s.best.2 then (x, fit x) else s.best) →
        IsBest true fit (s.visited ++ [x]) bst.1 bst.2 ∧ bst.2 ≤ s.best.2 ∧ bst.2 ≤ fit x := by
      rintro bst rfl
      by_cases hlt : fit x < s.best.2
      · rw [if_pos hlt]
        refine ⟨⟨by simp, rfl, ?_⟩, hlt.le, le_rfl⟩
        intro z hz
        simp only [NotWorse, if_true]
        rcases List.mem_append.1 hz with hz | hz
        · exact hlt.le.trans (hvis z hz)
        · simp only [List.mem_singleton] at hz; rw [hz]
      · rw [if_neg hlt]
        refine ⟨⟨List.mem_append_left _ hb.best.1, hb.best.2.1, ?_⟩, le_rfl, not_lt.1 hlt⟩
        intro z hz
        rcases List.mem_append.1 hz with hz | hz
        · exact hb.best.2.2 z hz
        · simp only [List.mem_singleton] at hz; rw [hz]; simpa [NotWorse] using not_lt.1 hlt
    have hfree : ∀ (bst : List K × K), bst = (if fit x < s.best.2 then (x, fit x) else s.best) → c.w = 0 → ∀ z ∈ s.log ++ cands, bst.2 ≤ fit z := by
      intro bst hbst hw z hz
      obtain ⟨k1, k2, k3⟩ := key bst hbst
      rcases List.mem_append.1 hz with hz | hz
      · exact k2.trans (hb.free hw z hz)
      · by_contra hcon
        have hzb : fit z < s.best.2 := lt_of_lt_of_le (not_le.1 hcon) k2
        obtain ⟨j, hj⟩ := List.mem_iff_getElem?.1 hz
        have hjl : j < nmoves c := by rw [← hlen]; exact (List.getElem?_eq_some_iff.1 hj).1
        obtain ⟨k', hk', -⟩ := hfreq j hjl
        have := hmin j z k' hj hk' (Or.inr ⟨fit z, by rw [List.getElem?_map, hj]; rfl, hzb⟩)
        rw [hw, mul_zero, mul_zero, add_zero, add_zero] at this
        exact hcon (k3.trans this)
    rcases hcase with ⟨ht, rfl⟩ | ⟨ht, hval, rfl⟩
    · obtain ⟨k1, k2, k3⟩ := key _ rfl
      have hns : ¬ fit x < (if fit x < s.best.2 then (x, fit x) else s.best).2 := not_lt.2 k3
      simp only [finish, if_neg hns]
      exact ⟨k1, hb.hist.step rfl ⟨⟨_, k1.1, k1.2.1.symm⟩, k1.2.2⟩, fun hw z hz => hfree _ rfl hw z hz⟩
    · have e : (x, fit x) = (if fit x < s.best.2 then (x, fit x) else s.best) := by rw [if_pos hval]
      obtain ⟨k1, k2, k3⟩ := key (x, fit x) e
      simp only [finish, lt_irrefl, if_false]
      refine ⟨k1, hb.hist.step rfl ⟨⟨_, k1.1, k1.2.1.symm⟩, k1.2.2⟩, ?_⟩
      intro hw z hz
      rcases List.mem_append.1 hz with hz | hz
      · exact hfree _ e hw z hz
      · simp only [List.mem_singleton] at hz; rw [hz]

theorem run_binv {c : Conf K} {Good : List K → Prop} {fit : List K → K} {dr : ℕ → ℕ → K × ℕ} (hd : ∀ n, CandOK c Good (dr n)) {x0 : List K}
    (hx : Good x0) {N : ℕ} (hN : NoBig c Good fit N) {n : ℕ} (hn : n ≤ N) {s : State K} (h : run c fit dr x0 n = .ok s) : BInv c fit s := by
  induction n generalizing s with
  | zero =>
    cases h
    have e := c.S.clip_of_inBox ((hd 0).box x0 hx)
    refine ⟨⟨by simp [init], by simp [init, e], by simp [init, e, NotWorse]⟩, ?_, by simp [init, e]⟩
    exact histBest_nil true fit 1 [x0]
  | succ n ih =>
    simp only [run] at h
    split at h
    · cases h
    rename_i s0 h0
    exact gen_binv (hd n) hN (by omega) (run_inv hd hx h0) (ih (by omega) h0) h

end
end Neorl.TS
