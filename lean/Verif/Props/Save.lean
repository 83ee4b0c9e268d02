import Verif.Save
import Mathlib.Data.List.Nodup
import Mathlib.Data.List.Perm.Basic

/-!
# C115: what is saved is what is loaded
-/

set_option linter.unusedSectionVars false
set_option linter.unusedVariables false

namespace Neorl.Save

/-! ### Dictionaries -/

section Dict
variable {κ β : Type} [DecidableEq κ]

theorem dget_cons (k : κ) (e : κ × β) (es : List (κ × β)) : dget k (e :: es) = if e.1 = k then some e.2 else dget k es := by
  unfold dget
  rw [List.find?_cons]
  by_cases h : e.1 = k <;> simp [h]

theorem dget_eq_none {k : κ} {es : List (κ × β)} : dget k es = none ↔ k ∉ es.map Prod.fst := by
  induction es with
  | nil => simp [dget]
  | cons e es ih =>
    rw [dget_cons]
    by_cases h : e.1 = k
    · simp [h]
    · rw [if_neg h, ih]
      simp [Ne.symm h]

theorem dget_mem {k : κ} {v : β} : ∀ {es : List (κ × β)}, dget k es = some v → (k, v) ∈ es
  | [], h => by simp [dget] at h
  | e :: es, h => by
    rw [dget_cons] at h
    by_cases hk : e.1 = k
    · rw [if_pos hk] at h
      injection h with h
      subst hk h
      exact List.mem_cons_self
    · rw [if_neg hk] at h
      exact List.mem_cons_of_mem _ (dget_mem h)

theorem dget_of_mem {k : κ} {v : β} : ∀ {es : List (κ × β)}, (es.map Prod.fst).Nodup → (k, v) ∈ es → dget k es = some v
  | [], _, h => by simp at h
  | e :: es, hn, h => by
    rw [List.map_cons, List.nodup_cons] at hn
    rw [dget_cons]
    rcases List.mem_cons.1 h with rfl | h
    · rw [if_pos rfl]
    · rw [if_neg, dget_of_mem hn.2 h]
      rintro rfl
      exact hn.1 (List.mem_map.2 ⟨_, h, rfl⟩)

theorem dset_new {k : κ} {v : β} : ∀ {es : List (κ × β)}, k ∉ es.map Prod.fst → dset k v es = es ++ [(k, v)]
  | [], _ => rfl
  | e :: es, h => by
    simp only [List.map_cons, List.mem_cons, not_or] at h
    rw [dset, if_neg (Ne.symm h.1), dset_new h.2]
    rfl

theorem dfill_nodup : ∀ (es acc : List (κ × β)), ((acc ++ es).map Prod.fst).Nodup → dfill acc es = acc ++ es
  | [], acc, _ => by simp [dfill]
  | e :: es, acc, h => by
    have h1 : e.1 ∉ acc.map Prod.fst := by
      rw [List.map_append, List.map_cons, List.nodup_append] at h
      exact fun hm => h.2.2 _ hm _ List.mem_cons_self rfl
    rw [dfill, dset_new h1, dfill_nodup es _ (by simpa using h)]
    simp

theorem dget_dset (k k' : κ) (v : β) : ∀ es : List (κ × β), dget k (dset k' v es) = if k' = k then some v else dget k es
  | [] => by rw [dset, dget_cons]
  | e :: es => by
    rw [dset]
    by_cases h : e.1 = k'
    · rw [if_pos h, dget_cons, dget_cons]
      by_cases h2 : k' = k
      · simp [h2]
      · rw [if_neg h2, if_neg h2, if_neg (h ▸ h2)]
    · rw [if_neg h, dget_cons, dget_cons, dget_dset k k' v es]
      by_cases h2 : k' = k
      · rw [if_pos h2, if_neg (fun e2 => h (e2.trans h2.symm)), if_pos h2]
      · rw [if_neg h2, if_neg h2]

theorem dget_dfill (k : κ) : ∀ (es acc : List (κ × β)), k ∉ es.map Prod.fst → dget k (dfill acc es) = dget k acc
  | [], acc, _ => rfl
  | e :: es, acc, h => by
    simp only [List.map_cons, List.mem_cons, not_or] at h
    rw [dfill, dget_dfill k es _ h.2, dget_dset, if_neg (Ne.symm h.1)]

theorem dset_keys_nodup (k : κ) (v : β) : ∀ es : List (κ × β), (es.map Prod.fst).Nodup → ((dset k v es).map Prod.fst).Nodup ∧ ∀ x ∈ (dset k v es).map Prod.fst, x = k ∨ x ∈ es.map Prod.fst
  | [], _ => by simp [dset]
  | e :: es, h => by
    rw [List.map_cons, List.nodup_cons] at h
    rw [dset]
    by_cases hk : e.1 = k
    · rw [if_pos hk]
      refine ⟨?_, fun x hx => ?_⟩
      · rw [List.map_cons, List.nodup_cons]
        exact ⟨hk ▸ h.1, h.2⟩
      · rcases List.mem_cons.1 hx with rfl | hx
        · exact Or.inl rfl
        · exact Or.inr (List.mem_cons_of_mem _ hx)
    · rw [if_neg hk]
      have ih := dset_keys_nodup k v es h.2
      refine ⟨?_, fun x hx => ?_⟩
      · rw [List.map_cons, List.nodup_cons]
        refine ⟨fun hm => ?_, ih.1⟩
        rcases ih.2 _ hm with h2 | h2
        · exact hk h2
        · exact h.1 h2
      · rcases List.mem_cons.1 hx with rfl | hx
        · exact Or.inr List.mem_cons_self
        · rcases ih.2 x hx with h2 | h2
          · exact Or.inl h2
          · exact Or.inr (List.mem_cons_of_mem _ h2)

theorem dfill_keys_nodup : ∀ (es acc : List (κ × β)), (acc.map Prod.fst).Nodup → ((dfill acc es).map Prod.fst).Nodup
  | [], _, h => h
  | e :: es, acc, h => dfill_keys_nodup es _ (dset_keys_nodup e.1 e.2 acc h).1

theorem dset_mem {k : κ} {v : β} {x : κ × β} : ∀ {es : List (κ × β)}, x ∈ dset k v es → x = (k, v) ∨ x ∈ es
  | [], h => by simpa [dset] using h
  | e :: es, h => by
    rw [dset] at h
    by_cases hk : e.1 = k
    · rw [if_pos hk] at h
      rcases List.mem_cons.1 h with h | h
      · exact Or.inl h
      · exact Or.inr (List.mem_cons_of_mem _ h)
    · rw [if_neg hk] at h
      rcases List.mem_cons.1 h with h | h
      · exact Or.inr (h ▸ List.mem_cons_self)
      · rcases dset_mem h with h | h
        · exact Or.inl h
        · exact Or.inr (List.mem_cons_of_mem _ h)

theorem dfill_mem {x : κ × β} : ∀ {es acc : List (κ × β)}, x ∈ dfill acc es → x ∈ acc ∨ x ∈ es
  | [], acc, h => Or.inl h
  | e :: es, acc, h => by
    rw [dfill] at h
    rcases dfill_mem h with h | h
    · rcases dset_mem h with h | h
      · exact Or.inr (h ▸ List.mem_cons_self)
      · exact Or.inl h
    · exact Or.inr (List.mem_cons_of_mem _ h)

end Dict

/-! ### JSON -/

mutual
/-- Values JSON can represent exactly: no tuples, no other objects, dictionaries with (different) string keys only. -/
def Clean : Val → Prop
  | .tuple _ => False
  | .obj _ _ => False
  | .list l => CleanList l
  | .dict es => CleanEntries es ∧ (es.map Prod.fst).Nodup
  | _ => True
/-- Elements. -/
def CleanList : List Val → Prop
  | [] => True
  | v :: l => Clean v ∧ CleanList l
/-- Entries. -/
def CleanEntries : List (Key × Val) → Prop
  | [] => True
  | (k, v) :: l => (∃ s, k = .str s) ∧ Clean v ∧ CleanEntries l
end

theorem cleanEntries_iff : ∀ es : List (Key × Val), CleanEntries es ↔ ∀ e ∈ es, (∃ s, e.1 = .str s) ∧ Clean e.2
  | [] => by simp [CleanEntries]
  | (k, v) :: l => by
    rw [CleanEntries, cleanEntries_iff l]
    simp [and_assoc]

mutual
theorem clean_dumps : ∀ v : Val, Clean v → ∃ j, dumps v = some j ∧ loads j = v
  | .null, _ => ⟨_, rfl, rfl⟩
  | .bool _, _ => ⟨_, rfl, rfl⟩
  | .int _, _ => ⟨_, rfl, rfl⟩
  | .flt _, _ => ⟨_, rfl, rfl⟩
  | .str _, _ => ⟨_, rfl, rfl⟩
  | .tuple _, h => absurd h (by simp [Clean])
  | .obj _ _, h => absurd h (by simp [Clean])
  | .list l, h => by
    obtain ⟨r, h1, h2⟩ := clean_dumpsList l (by simpa [Clean] using h)
    exact ⟨.arr r, by rw [dumps, h1]; rfl, by rw [loads, h2]⟩
  | .dict es, h => by
    rw [Clean] at h
    obtain ⟨r, h1, h2⟩ := clean_dumpsEntries es h.1
    refine ⟨.obj r, by rw [dumps, h1]; rfl, ?_⟩
    rw [loads, h2, dfill_nodup es [] h.2]
    rfl
theorem clean_dumpsList : ∀ l : List Val, CleanList l → ∃ r, dumpsList l = some r ∧ loadsList r = l
  | [], _ => ⟨[], rfl, rfl⟩
  | v :: l, h => by
    rw [CleanList] at h
    obtain ⟨j, h1, h2⟩ := clean_dumps v h.1
    obtain ⟨r, h3, h4⟩ := clean_dumpsList l h.2
    exact ⟨j :: r, by rw [dumpsList, h1, h3], by rw [loadsList, h2, h4]⟩
theorem clean_dumpsEntries : ∀ l : List (Key × Val), CleanEntries l → ∃ r, dumpsEntries l = some r ∧ loadsEntries r = l
  | [], _ => ⟨[], rfl, rfl⟩
  | (k, v) :: l, h => by
    rw [CleanEntries] at h
    obtain ⟨⟨s, rfl⟩, hv, hl⟩ := h
    obtain ⟨j, h1, h2⟩ := clean_dumps v hv
    obtain ⟨r, h3, h4⟩ := clean_dumpsEntries l hl
    exact ⟨(s, j) :: r, by rw [dumpsEntries, h1, h3]; rfl, by rw [loadsEntries, h2, h4]⟩
end

mutual
theorem loads_clean : ∀ j : JVal, Clean (loads j)
  | .null => trivial
  | .bool _ => trivial
  | .int _ => trivial
  | .flt _ => trivial
  | .str _ => trivial
  | .arr l => by
    rw [loads, Clean]
    exact loadsList_clean l
  | .obj es => by
    rw [loads, Clean]
    refine ⟨(cleanEntries_iff _).2 fun e he => ?_, dfill_keys_nodup _ _ (by simp)⟩
    rcases dfill_mem he with h | h
    · simp at h
    · exact (cleanEntries_iff _).1 (loadsEntries_clean es) e h
theorem loadsList_clean : ∀ l : List JVal, CleanList (loadsList l)
  | [] => trivial
  | j :: l => by
    rw [loadsList, CleanList]
    exact ⟨loads_clean j, loadsList_clean l⟩
theorem loadsEntries_clean : ∀ l : List (Str × JVal), CleanEntries (loadsEntries l)
  | [] => trivial
  | (s, j) :: l => by
    rw [loadsEntries, CleanEntries]
    exact ⟨⟨s, rfl⟩, loads_clean j, loadsEntries_clean l⟩
end

/-- **C115.** A value that `json` accepts comes back unchanged exactly if it has no tuples and only string keys; such values are always accepted. -/
theorem C115_json (v : Val) : (Clean v → ∃ j, dumps v = some j) ∧ ∀ j, dumps v = some j → (loads j = v ↔ Clean v) := by
  refine ⟨fun h => ?_, fun j hj => ⟨fun h => h ▸ loads_clean j, fun h => ?_⟩⟩
  · obtain ⟨j, h1, -⟩ := clean_dumps v h
    exact ⟨j, h1⟩
  · obtain ⟨j', h1, h2⟩ := clean_dumps v h
    rw [hj] at h1
    injection h1 with h1
    rw [h1, h2]

/-! ### `data` -/

/-- No entry called `:serialized:`. -/
def Unmarked (v : Val) : Prop := ∀ es, v = .dict es → Key.str serKey ∉ es.map Prod.fst

/-- What may be listed beside a pickled value: keys JSON accepts, none of them `:serialized:`. -/
def Listable (v : Val) : Prop := ∀ e ∈ attrsOf v, ∃ s, keyStr e.1 = some s ∧ s ≠ serKey

/-- Items that survive: exact in JSON, or pickled. -/
def Kept (v : Val) : Prop := (Clean v ∧ Unmarked v) ∨ (dumps v = none ∧ Listable v)

theorem readItem_plain (L : Lib) (k : Str) (v : Val) (h : Unmarked v) : readItem L none k v = .ok v := by
  cases v with
  | dict es =>
    have : dget (.str serKey) es = none := dget_eq_none.2 (h es rfl)
    simp [readItem, this]
  | _ => rfl

/-- Shape of the stored dictionary of a pickled item. -/
theorem envelope_shape (L : Lib) (p : Str) : ∀ (as : List (Key × Val)) (tv : Val) (rest : List (Key × Val)), (dumps tv).isSome → (∀ e ∈ as, ∃ s, keyStr e.1 = some s ∧ s ≠ serKey) →
    (∀ e ∈ rest, (∃ s, keyStr e.1 = some s ∧ s ≠ serKey) ∧ (dumps e.2).isSome) →
    ∃ tv' rest', dfill ((.str typeKey, tv) :: (.str serKey, .str p) :: rest) (as.map fun e => (e.1, if isJson e.2 then e.2 else .str (L.text e.2))) = (.str typeKey, tv') :: (.str serKey, .str p) :: rest' ∧
      (dumps tv').isSome ∧ ∀ e ∈ rest', (∃ s, keyStr e.1 = some s ∧ s ≠ serKey) ∧ (dumps e.2).isSome
  | [], tv, rest, ht, _, hr => ⟨tv, rest, rfl, ht, hr⟩
  | (k, v) :: as, tv, rest, ht, ha, hr => by
    obtain ⟨s, hs, hne⟩ := ha (k, v) List.mem_cons_self
    have hv : ∃ x : Val, (if isJson v then v else Val.str (L.text v)) = x ∧ (dumps x).isSome := by
      refine ⟨_, rfl, ?_⟩
      by_cases hj : isJson v
      · rw [if_pos hj]; exact hj
      · rw [if_neg hj]; rfl
    obtain ⟨x, hx, hxs⟩ := hv
    rw [List.map_cons, dfill]
    simp only [hx]
    by_cases h1 : Key.str typeKey = k
    · have : dset k x ((.str typeKey, tv) :: (.str serKey, .str p) :: rest) = (.str typeKey, x) :: (.str serKey, .str p) :: rest := by
        rw [dset, if_pos h1, h1]
      rw [this]
      exact envelope_shape L p as x rest hxs (fun e he => ha e (List.mem_cons_of_mem _ he)) hr
    · have h2 : Key.str serKey ≠ k := by
        rintro rfl
        simp [keyStr] at hs
        exact hne hs.symm
      have : dset k x ((.str typeKey, tv) :: (.str serKey, .str p) :: rest) = (.str typeKey, tv) :: (.str serKey, .str p) :: dset k x rest := by
        rw [dset, if_neg h1, dset, if_neg h2]
      rw [this]
      refine envelope_shape L p as tv (dset k x rest) ht (fun e he => ha e (List.mem_cons_of_mem _ he)) fun e he => ?_
      rcases dset_mem he with rfl | he
      · exact ⟨⟨s, hs, hne⟩, hxs⟩
      · exact hr e he

theorem dumpsEntries_some : ∀ es : List (Key × Val), (∀ e ∈ es, (∃ s, keyStr e.1 = some s ∧ s ≠ serKey) ∧ (dumps e.2).isSome) →
    ∃ r, dumpsEntries es = some r ∧ Key.str serKey ∉ (loadsEntries r).map Prod.fst
  | [], _ => ⟨[], rfl, by simp [loadsEntries]⟩
  | (k, v) :: es, h => by
    obtain ⟨⟨s, hs, hne⟩, hv⟩ := h (k, v) List.mem_cons_self
    obtain ⟨j, hj⟩ := Option.isSome_iff_exists.1 hv
    obtain ⟨r, hr, hn⟩ := dumpsEntries_some es fun e he => h e (List.mem_cons_of_mem _ he)
    refine ⟨(s, j) :: r, by simp only [dumpsEntries, hs, hj, hr], ?_⟩
    rw [loadsEntries, List.map_cons, List.mem_cons, not_or]
    exact ⟨fun e => hne (by injection e with e; exact e.symm), hn⟩

theorem envelope_read (L : Lib) (v : Val) (h : Listable v) : ∃ j, dumps (envelope L v) = some j ∧ ∃ es, loads j = .dict es ∧ dget (Key.str serKey) es = some (.str (L.pickle v)) := by
  obtain ⟨tv, rest, h1, h2, h3⟩ := envelope_shape L (L.pickle v) (attrsOf v) (.str (L.typeName v)) [] rfl h (by simp)
  obtain ⟨jt, hjt⟩ := Option.isSome_iff_exists.1 h2
  obtain ⟨r, hr, hn⟩ := dumpsEntries_some rest h3
  have h4 : dumps (.str (L.pickle v)) = some (.str (L.pickle v)) := rfl
  have h5 : dumpsEntries ((.str typeKey, tv) :: (.str serKey, .str (L.pickle v)) :: rest) = some ((typeKey, jt) :: (serKey, .str (L.pickle v)) :: r) := by
    simp only [dumpsEntries, keyStr, hjt, h4, hr]
  refine ⟨.obj ((typeKey, jt) :: (serKey, .str (L.pickle v)) :: r), ?_, _, rfl, ?_⟩
  · rw [envelope, h1, dumps, h5]
    rfl
  · rw [loadsEntries, loadsEntries, dfill, dfill, dget_dfill _ _ _ hn, dget_dset, if_pos rfl]
    rfl

/-- What is put into the JSON document for an item. -/
def stored (L : Lib) (v : Val) : Val := if isJson v then v else envelope L v

theorem stored_read (L : Lib) (hL : ∀ v, L.unpickle (L.pickle v) = some v) (v : Val) (h : Kept v) : ∃ j, dumps (stored L v) = some j ∧ ∀ k, readItem L none k (loads j) = .ok v := by
  rcases h with ⟨hc, hu⟩ | ⟨hd, hl⟩
  · obtain ⟨j, h1, h2⟩ := clean_dumps v hc
    refine ⟨j, ?_, fun k => ?_⟩
    · rw [stored, isJson, h1]
      exact h1
    · rw [h2]
      exact readItem_plain L k v hu
  · obtain ⟨j, h1, es, h2, h3⟩ := envelope_read L v hl
    refine ⟨j, ?_, fun k => ?_⟩
    · rw [stored, isJson, hd]
      exact h1
    · rw [h2]
      simp [readItem, h3, hL]

theorem readItem_custom (L : Lib) (cs : List (Str × Val)) (k : Str) (w v : Val) (h : readItem L none k w = .ok v) : readItem L (some cs) k w = .ok ((dget k cs).getD v) := by
  cases hc : dget k cs with
  | some c => simp [readItem, hc]
  | none =>
    show _ = Except.ok v
    rw [← h]
    simp [readItem, hc]

theorem data_read (L : Lib) (hL : ∀ v, L.unpickle (L.pickle v) = some v) (custom : Option (List (Str × Val))) : ∀ data : List (Str × Val), (∀ e ∈ data, Kept e.2) →
    ∃ r, dumpsEntries (data.map fun e => (Key.str e.1, if isJson e.2 then e.2 else envelope L e.2)) = some r ∧ (loadsEntries r).map Prod.fst = data.map (fun e => Key.str e.1) ∧
      readItems L custom (loadsEntries r) = .ok (data.map fun e => (e.1, (custom.bind (dget e.1)).getD e.2))
  | [], _ => ⟨[], rfl, rfl, rfl⟩
  | (k, v) :: data, h => by
    obtain ⟨j, h1, h2⟩ := stored_read L hL v (h (k, v) List.mem_cons_self)
    obtain ⟨r, h3, h4, h5⟩ := data_read L hL custom data fun e he => h e (List.mem_cons_of_mem _ he)
    rw [stored] at h1
    refine ⟨(k, j) :: r, ?_, ?_, ?_⟩
    · rw [List.map_cons]
      simp only [dumpsEntries, keyStr, h1, h3]
    · rw [loadsEntries, List.map_cons, h4]
      rfl
    · rw [loadsEntries, readItems, h5]
      cases custom with
      | none => rw [h2]; rfl
      | some cs => rw [readItem_custom L cs k _ v (h2 k)]; rfl

theorem data_roundtrip (L : Lib) (hL : ∀ v, L.unpickle (L.pickle v) = some v) (custom : Option (List (Str × Val))) (data : List (Str × Val)) (hn : (data.map Prod.fst).Nodup) (hk : ∀ e ∈ data, Kept e.2) :
    ∃ j, dataToJson L data = .ok j ∧ jsonToData L custom j = .ok (data.map fun e => (e.1, (custom.bind (dget e.1)).getD e.2)) := by
  obtain ⟨r, h1, h2, h3⟩ := data_read L hL custom data hk
  refine ⟨.obj r, ?_, ?_⟩
  · unfold dataToJson
    rw [dumps, h1]
    rfl
  · have h4 : dfill [] (loadsEntries r) = loadsEntries r := by
      rw [dfill_nodup, List.nil_append]
      rw [List.nil_append, h2]
      have : data.map (fun e => Key.str e.1) = (data.map Prod.fst).map Key.str := by rw [List.map_map]; rfl
      rw [this]
      exact hn.map fun a b e => by injection e
    rw [jsonToData, loads, h4]
    exact h3

/-- **C115.** Attributes survive saving and loading, in their order, if each is exact in JSON or not accepted by it (then it is pickled); `custom_objects` replace exactly the attributes they name. -/
theorem C115_data (L : Lib) (hL : ∀ v, L.unpickle (L.pickle v) = some v) (data : List (Str × Val)) (hn : (data.map Prod.fst).Nodup) (hk : ∀ e ∈ data, Kept e.2) :
    ∃ j, dataToJson L data = .ok j ∧ jsonToData L none j = .ok data ∧
    ∀ cs : List (Str × Val), jsonToData L (some cs) j = .ok (data.map fun e => (e.1, match dget e.1 cs with | some c => c | none => e.2)) := by
  obtain ⟨j, h1, h2⟩ := data_roundtrip L hL none data hn hk
  refine ⟨j, h1, by simpa using h2, fun cs => ?_⟩
  obtain ⟨j', h3, h4⟩ := data_roundtrip L hL (some cs) data hn hk
  rw [h1] at h3
  injection h3 with h3
  rw [h3, h4]
  congr 1
  refine List.map_congr_left fun e _ => ?_
  show (e.1, (dget e.1 cs).getD e.2) = _
  cases dget e.1 cs <;> rfl

/-- **C115, defect.** An item that JSON accepts but cannot represent (a tuple or an integer key somewhere inside) is not pickled: it comes back, without any error, as something else. -/
theorem C115_changed (L : Lib) (k : Str) (v : Val) {j : JVal} (hj : dumps v = some j) (hc : ¬Clean v) (hu : Unmarked (loads j)) :
    ∃ d v', dataToJson L [(k, v)] = .ok d ∧ jsonToData L none d = .ok [(k, v')] ∧ v' ≠ v := by
  refine ⟨.obj [(k, j)], loads j, ?_, ?_, fun h => hc (h ▸ loads_clean j)⟩
  · unfold dataToJson
    have : isJson v = true := by rw [isJson, hj]; rfl
    simp only [List.map_cons, List.map_nil, dumps, dumpsEntries, keyStr, this, if_true, hj]
    rfl
  · have := readItem_plain L k (loads j) hu
    simp only [jsonToData, loads, loadsEntries, dfill, dset, readItems, this]
    rfl

/-- **C115, defect.** In particular `(64, 64)` comes back as `[64, 64]`, and a model saved with such `policy_kwargs` refuses to be loaded with the very same `policy_kwargs`. -/
theorem C115_kwargs (L : Lib) (eq : Val → Val → Bool) (heq : ∀ k a b, eq (.dict [(k, a)]) (.dict [(k, b)]) = eq a b) (hne : ∀ a b, eq (.tuple a) (.list b) = false) (name : Str) (hs : name ≠ serKey) (layers : List ℤ) :
    ∃ d r, dataToJson L [("policy_kwargs".toList, .dict [(.str name, .tuple (layers.map .int))])] = .ok d ∧ jsonToData L none d = .ok r ∧
    checkKwargs eq r (some (.dict [(.str name, .tuple (layers.map .int))])) = .error .valueError := by
  have h1 : ∀ l : List ℤ, dumpsList (l.map Val.int) = some (l.map JVal.int) := by
    intro l
    induction l with
    | nil => rfl
    | cons a l ih => simp only [List.map_cons, dumpsList, dumps, ih]
  have h2 : ∀ l : List ℤ, loadsList (l.map JVal.int) = l.map Val.int := by
    intro l
    induction l with
    | nil => rfl
    | cons a l ih => simp only [List.map_cons, loadsList, loads, ih]
  have h3 : dumps (.dict [(.str name, .tuple (layers.map .int))]) = some (.obj [(name, .arr (layers.map .int))]) := by
    simp only [dumps, dumpsEntries, keyStr, h1]
    rfl
  have h4 : loads (.obj [(name, .arr (layers.map .int))]) = .dict [(.str name, .list (layers.map .int))] := by
    simp only [loads, loadsEntries, dfill, dset, h2]
  refine ⟨.obj [("policy_kwargs".toList, .obj [(name, .arr (layers.map .int))])], [("policy_kwargs".toList, .dict [(.str name, .list (layers.map .int))])], ?_, ?_, ?_⟩
  · unfold dataToJson
    have : isJson (.dict [(.str name, .tuple (layers.map .int))]) = true := by rw [isJson, h3]; rfl
    simp only [List.map_cons, List.map_nil, this, if_true]
    rw [dumps, dumpsEntries, h3]
    rfl
  · have h5 := readItem_plain L "policy_kwargs".toList (.dict [(.str name, .list (layers.map .int))]) (by
      intro es he
      injection he with he
      subst he
      simp
      exact Ne.symm hs)
    rw [jsonToData, loads, loadsEntries, h4]
    simp only [loadsEntries, dfill, dset, readItems, h5]
    rfl
  · have h6 : ∀ (k : Str) (x : Val), dget k [(k, x)] = some x := fun k x => by rw [dget_cons, if_pos rfl]
    rw [checkKwargs]
    simp only [h6, heq, hne]
    rfl

/-- **C115, defect.** A dictionary that JSON does not accept because of its keys (say tuples) is pickled, but its keys are copied next to the pickle, and saving fails. -/
theorem C115_keys (L : Lib) (k : Str) (es : List (Key × Val)) (i : ℕ) (v : Val) (h : (Key.other i, v) ∈ es) : dataToJson L [(k, .dict es)] = .error .typeError := by
  have hE : ∀ (es : List (Key × Val)) (v : Val), (Key.other i, v) ∈ es → dumpsEntries es = none := by
    intro es
    induction es with
    | nil => intro v h; simp at h
    | cons e es ih =>
      intro v h
      obtain ⟨k, w⟩ := e
      rcases List.mem_cons.1 h with h | h
      · injection h with h1 h2
        subst h1
        simp [dumpsEntries, keyStr]
      · simp only [dumpsEntries, ih v h]
        cases keyStr k <;> cases dumps w <;> rfl
  have h1 : isJson (.dict es) = false := by rw [isJson, dumps, hE es v h]; rfl
  have h2 : ∀ (as acc : List (Key × Val)), (Key.other i ∈ acc.map Prod.fst ∨ Key.other i ∈ as.map Prod.fst) → Key.other i ∈ (dfill acc as).map Prod.fst := by
    intro as acc h
    by_contra hc
    have hn := dget_eq_none.2 hc
    clear hc
    induction as generalizing acc with
    | nil =>
      rcases h with h | h
      · exact (dget_eq_none.1 hn) h
      · simp at h
    | cons a as ih =>
      rw [dfill] at hn
      refine ih (dset a.1 a.2 acc) ?_ hn
      by_cases ha : a.1 = Key.other i
      · left
        by_contra hc
        have := dget_eq_none.2 hc
        rw [dget_dset, if_pos ha] at this
        cases this
      · rcases h with h | h
        · left
          by_contra hc
          have := dget_eq_none.2 hc
          rw [dget_dset, if_neg ha] at this
          exact dget_eq_none.1 this h
        · right
          rcases List.mem_cons.1 h with h | h
          · exact absurd h.symm ha
          · exact h
  have h3 : dumps (envelope L (.dict es)) = none := by
    unfold envelope
    rw [dumps]
    obtain ⟨x, hx, hk⟩ := List.mem_map.1 (h2 ((attrsOf (.dict es)).map fun e => (e.1, if isJson e.2 then e.2 else .str (L.text e.2))) [(.str typeKey, .str (L.typeName (.dict es))), (.str serKey, .str (L.pickle (.dict es)))]
      (Or.inr (List.mem_map.2 ⟨(Key.other i, if isJson v then v else .str (L.text v)), List.mem_map.2 ⟨_, h, rfl⟩, rfl⟩)))
    obtain ⟨a, b⟩ := x
    simp only at hk
    subst hk
    rw [hE _ _ hx]
    rfl
  unfold dataToJson
  simp only [List.map_cons, List.map_nil, h1, Bool.false_eq_true, if_false, dumps, dumpsEntries, keyStr, h3]
  rfl

/-- **C115, defect.** A dictionary of the user with an entry called `:serialized:` is taken for a pickle when loaded. -/
theorem C115_marker (L : Lib) (k s : Str) : ∃ d, dataToJson L [(k, .dict [(.str serKey, .str s)])] = .ok d ∧
    jsonToData L none d = match L.unpickle s with | some x => .ok [(k, x)] | none => .error .runtimeError := by
  refine ⟨.obj [(k, .obj [(serKey, .str s)])], rfl, ?_⟩
  have : dget (Key.str serKey) [(Key.str serKey, Val.str s)] = some (.str s) := by rw [dget_cons, if_pos rfl]
  simp only [jsonToData, loads, loadsEntries, dfill, dset, readItems, readItem, this, Option.bind]
  cases L.unpickle s <;> rfl

/-! ### Parameters -/

section Params
variable {A : Type}

/-- **C115.** The parameters come back complete and in their order, whatever the order inside the archive. -/
theorem C115_params (ps npz : List (Str × A)) (hn : (ps.map Prod.fst).Nodup) (hp : npz.Perm ps) : bytesToParams npz (ps.map Prod.fst) = .ok ps := by
  have hg : ∀ e ∈ ps, dget e.1 npz = some e.2 := fun e he => dget_of_mem ((hp.map Prod.fst).nodup_iff.2 hn) (hp.mem_iff.2 he)
  clear hn hp
  induction ps with
  | nil => rfl
  | cons e ps ih =>
    rw [List.map_cons, bytesToParams, hg e List.mem_cons_self, ih fun x hx => hg x (List.mem_cons_of_mem _ hx)]
    rfl

theorem collect_spec (vars : List Str) : ∀ (ps : List (Str × A)) (left : List Str), (ps.map Prod.fst).Nodup → (∀ k ∈ ps.map Prod.fst, k ∈ vars → k ∈ left) →
    ((∀ k ∈ ps.map Prod.fst, k ∈ vars) → collect vars ps left = .ok (ps, left.filter fun x => x ∉ ps.map Prod.fst)) ∧ ((∃ k ∈ ps.map Prod.fst, k ∉ vars) → collect vars ps left = .error .keyError)
  | [], left, _, _ => by
    refine ⟨fun _ => ?_, fun ⟨k, hk, _⟩ => by simp at hk⟩
    simp [collect]
  | (k, a) :: ps, left, hn, hl => by
    rw [List.map_cons, List.nodup_cons] at hn
    have ih := collect_spec vars ps (left.filter fun x => x ≠ k) hn.2 fun x hx hv => by
      rw [List.mem_filter]
      refine ⟨hl x (List.mem_cons_of_mem _ hx) hv, ?_⟩
      have : x ≠ k := by
        rintro rfl
        exact hn.1 hx
      simpa using this
    by_cases hk : k ∈ vars
    · have hkl := hl k List.mem_cons_self hk
      refine ⟨fun h => ?_, fun ⟨x, hx, hv⟩ => ?_⟩
      · rw [collect, if_neg (by simpa using hk), if_neg (by simpa using hkl), ih.1 fun x hx => h x (List.mem_cons_of_mem _ hx)]
        show Except.ok _ = _
        congr 2
        rw [List.filter_filter]
        refine List.filter_congr fun x _ => ?_
        rw [List.map_cons]
        by_cases h1 : x = k <;> simp [h1]
      · rw [collect, if_neg (by simpa using hk), if_neg (by simpa using hkl), ih.2]
        · rfl
        · rcases List.mem_cons.1 hx with rfl | hx
          · exact absurd hk hv
          · exact ⟨x, hx, hv⟩
    · refine ⟨fun h => absurd (h k List.mem_cons_self) hk, fun _ => ?_⟩
      rw [collect, if_pos hk]

/-- **C115.** `load_parameters`: an unknown name is a `KeyError`; with `exact_match` a missing one is a `RuntimeError`; otherwise exactly the variables named get the values given. In the cases of error nothing is loaded. -/
theorem C115_load (vars : List Str) (w : Str → A) (exact : Bool) (ps : List (Str × A)) (hn : (ps.map Prod.fst).Nodup) :
    ((∃ k ∈ ps.map Prod.fst, k ∉ vars) → loadDict vars w exact ps = .error .keyError) ∧
    ((∀ k ∈ ps.map Prod.fst, k ∈ vars) → (exact = true ∧ ∃ k ∈ vars, k ∉ ps.map Prod.fst) → loadDict vars w exact ps = .error .runtimeError) ∧
    ((∀ k ∈ ps.map Prod.fst, k ∈ vars) → (exact = true → ∀ k ∈ vars, k ∈ ps.map Prod.fst) → ∃ w', loadDict vars w exact ps = .ok w' ∧ (∀ e ∈ ps, w' e.1 = e.2) ∧ ∀ k, k ∉ ps.map Prod.fst → w' k = w k) := by
  have hs := collect_spec vars ps vars hn fun _ _ h => h
  refine ⟨fun h => ?_, fun h1 h2 => ?_, fun h1 h2 => ?_⟩
  · rw [loadDict, hs.2 h]
    rfl
  · obtain ⟨he, k, hk, hk2⟩ := h2
    rw [loadDict, hs.1 h1]
    show (if _ then _ else _) = _
    rw [if_pos]
    refine ⟨he, fun h => ?_⟩
    rw [List.filter_eq_nil_iff] at h
    exact h k hk (by simpa using hk2)
  · refine ⟨fun k => (dget k ps).getD (w k), ?_, fun e he => ?_, fun k hk => ?_⟩
    · rw [loadDict, hs.1 h1]
      show (if _ then _ else _) = _
      rw [if_neg]
      rintro ⟨he, hne⟩
      apply hne
      rw [List.filter_eq_nil_iff]
      intro k hk
      simpa using h2 he k hk
    · beta_reduce
      rw [dget_of_mem hn (show (e.1, e.2) ∈ ps from he)]
      rfl
    · beta_reduce
      rw [dget_eq_none.2 hk]
      rfl

/-- **C115.** The parameters of one model loaded into another with the same variables give it the same parameters. -/
theorem C115_transfer (vars : List Str) (hn : vars.Nodup) (w v : Str → A) : ∃ w', loadDict vars v true (getParameters vars w) = .ok w' ∧ (∀ k ∈ vars, w' k = w k) ∧ getParameters vars w' = getParameters vars w := by
  have hm : (getParameters vars w).map Prod.fst = vars := by
    rw [getParameters, List.map_map]
    exact List.map_id vars
  obtain ⟨w', h1, h2, -⟩ := (C115_load vars v true (getParameters vars w) (by rw [hm]; exact hn)).2.2 (by rw [hm]; exact fun _ h => h) (by rw [hm]; exact fun _ _ h => h)
  have h3 : ∀ k ∈ vars, w' k = w k := fun k hk => h2 (k, w k) (List.mem_map.2 ⟨k, hk, rfl⟩)
  exact ⟨w', h1, h3, List.map_congr_left fun k hk => by rw [h3 k hk]⟩

/-- **C115.** A list is matched by position; a list that is too short is refused, but (defect) entries beyond the number of variables are ignored even with `exact_match`. -/
theorem C115_list (vars : List Str) (hn : vars.Nodup) (w : Str → A) (exact : Bool) (l extra : List A) (hl : l.length = vars.length) :
    (∃ w', loadList vars w exact (l ++ extra) = .ok w' ∧ vars.map w' = l) ∧ ∀ l' : List A, l'.length < vars.length → loadList vars w exact l' = .error .indexError := by
  refine ⟨?_, fun l' h => by rw [loadList, if_pos h]⟩
  have hz : vars.zip (l ++ extra) = vars.zip l := by
    clear hn w
    induction vars generalizing l with
    | nil => simp
    | cons x vars ih =>
      cases l with
      | nil => simp at hl
      | cons a l => rw [List.cons_append, List.zip_cons_cons, List.zip_cons_cons, ih l (by simpa using hl)]
  have hm : (vars.zip l).map Prod.fst = vars := by rw [List.map_fst_zip (by omega)]
  obtain ⟨w', h1, h2, -⟩ := (C115_load vars w exact (vars.zip l) (by rw [hm]; exact hn)).2.2 (by rw [hm]; exact fun _ h => h) (by rw [hm]; exact fun _ _ h => h)
  refine ⟨w', ?_, ?_⟩
  · rw [loadList, if_neg (by simp; omega), hz, h1]
  · have h3 : (vars.zip l).map (fun e => w' e.1) = (vars.zip l).map Prod.snd := List.map_congr_left fun e he => h2 e he
    rw [List.map_snd_zip (by omega)] at h3
    have h4 : vars.map w' = (vars.zip l).map fun e => w' e.1 := by
      conv_lhs => rw [← hm]
      rw [List.map_map]
      rfl
    rw [h4, h3]

/-! ### Files -/

/-- **C115.** A model saved as an archive is the one loaded from the same path, provided that the path has an extension or no file of that bare name is there. -/
theorem C115_file (L : Lib) (hL : ∀ v, L.unpickle (L.pickle v) = some v) (hasExt : Str → Bool) (perm : List (Str × A) → List (Str × A)) (hp : ∀ l, (perm l).Perm l) (fs : FS A) (p : Str) (hfs : hasExt p = true ∨ fs p = none)
    (data : List (Str × Val)) (hn : (data.map Prod.fst).Nodup) (hk : ∀ e ∈ data, Kept e.2) (ps : List (Str × A)) (hn2 : (ps.map Prod.fst).Nodup) :
    ∃ fs', saveZip L hasExt perm fs p (some data) (some ps) = .ok fs' ∧ loadFile L none fs' p = .ok (some data, some ps) ∧ ∀ q, q ≠ p → q ≠ p ++ ".zip".toList → fs' q = fs q := by
  obtain ⟨j, h1, h2, -⟩ := C115_data L hL data hn hk
  have h3 := C115_params ps (perm ps) hn2 (hp ps)
  obtain ⟨f, hf⟩ : ∃ f : File A, f = .zip (some j) (some (perm ps, ps.map Prod.fst)) := ⟨_, rfl⟩
  refine ⟨fs.write (if hasExt p then p else p ++ ".zip".toList) f, ?_, ?_, fun q hq hq2 => ?_⟩
  · unfold saveZip dumpData
    simp only
    rw [h1, hf]
    rfl
  · have hr : resolve (fs.write (if hasExt p then p else p ++ ".zip".toList) f) p = .ok f := by
      unfold resolve FS.write
      cases he : hasExt p with
      | true => simp
      | false =>
        have hne : p ≠ p ++ ".zip".toList := fun h => by
          have := congrArg List.length h
          simp at this
        rcases hfs with h | h
        · rw [he] at h
          cases h
        · simp only [Bool.false_eq_true, if_false, if_neg hne, h, if_true]
    unfold loadFile
    rw [hr, hf]
    show (do let data ← loadData L none (some j); let params ← loadParams (some (perm ps, ps.map Prod.fst)); Except.ok (data, params)) = _
    rw [loadData, loadParams, h2, h3]
    rfl
  · unfold FS.write
    rw [if_neg]
    cases hasExt p
    · exact hq2
    · exact hq

/-- **C115, defect.** Is there already a file of the bare name, the new model is written beside it and the old file is what is loaded. -/
theorem C115_stale (L : Lib) (hasExt : Str → Bool) (perm : List (Str × A) → List (Str × A)) (fs fs' : FS A) (p : Str) (he : hasExt p = false) (old : File A) (ho : fs p = some old) (data : Option (List (Str × Val))) (ps : Option (List (Str × A)))
    (h : saveZip L hasExt perm fs p data ps = .ok fs') : resolve fs' p = .ok old := by
  have : fs' p = some old := by
    unfold saveZip at h
    cases hj : dumpData L data with
    | error e =>
      rw [hj] at h
      cases h
    | ok j =>
      rw [hj] at h
      injection h with h
      rw [← h, ← ho]
      unfold FS.write
      rw [he, if_neg]
      intro h
      have := congrArg List.length h
      simp at this
  rw [resolve, this]

/-- **C115, defect.** A model saved with `cloudpickle=True` under a name without extension is not found again by that name, although `_load_from_file_cloudpickle` would look for it: the search for `.zip` comes first and
raises; if there is an older archive, that one is loaded instead. -/
theorem C115_pickle (hasExt : Str → Bool) (fs : FS A) (p : Str) (he : hasExt p = false) (h0 : fs p = none) (data : Option (List (Str × Val))) (ps : Option (List (Str × A))) :
    resolve (savePkl hasExt fs p data ps) p = (match fs (p ++ ".zip".toList) with | some old => .ok old | none => .error .valueError) ∧ resolve (savePkl hasExt fs p data ps) (p ++ ".pkl".toList) = .ok (.pkl data ps) := by
  have h1 : p ≠ p ++ ".pkl".toList := fun h => by
    have := congrArg List.length h
    simp at this
  have h2 : p ++ ".zip".toList ≠ p ++ ".pkl".toList := fun h => by
    have := List.append_cancel_left h
    simp at this
  unfold resolve savePkl FS.write
  rw [he]
  simp only [Bool.false_eq_true, if_false, if_neg h1, if_neg h2, h0, if_true]
  refine ⟨?_, trivial⟩
  cases fs (p ++ ".zip".toList) <;> rfl

end Params

/-! ### A run -/

/-- A model with a number, a list, and an object with an attribute. -/
def run : List (Str × Val) := [("gamma".toList, .flt (99 / 100)), ("layers".toList, .list [.int 64, .int 64]), ("policy".toList, .obj 7 (some [("name".toList, .str "Mlp".toList), ("f".toList, .obj 8 none)]))]

example : (run.map Prod.fst).Nodup ∧ ∀ e ∈ run, Kept e.2 := by
  refine ⟨by decide, fun e he => ?_⟩
  simp only [run, List.mem_cons, List.not_mem_nil, or_false] at he
  rcases he with rfl | rfl | rfl
  · exact Or.inl ⟨by simp [Clean], fun es h => by cases h⟩
  · exact Or.inl ⟨by simp [Clean, CleanList], fun es h => by cases h⟩
  · refine Or.inr ⟨rfl, fun e he => ?_⟩
    simp only [attrsOf, List.map_cons, List.map_nil, List.mem_cons, List.not_mem_nil, or_false] at he
    rcases he with rfl | rfl
    · exact ⟨"name".toList, rfl, by decide⟩
    · exact ⟨"f".toList, rfl, by decide⟩

/-- Integer keys come back as strings. -/
example : dumps (.dict [(.int 1, .null)]) = some (.obj [("1".toList, .null)]) ∧ loads (.obj [("1".toList, .null)]) = .dict [(.str "1".toList, .null)] := ⟨rfl, rfl⟩

example : (loadDict ["a".toList, "b".toList] (fun _ => 0) false [("b".toList, 5)]).map (fun w => [w "a".toList, w "b".toList]) = .ok [0, 5] ∧
    loadDict ["a".toList, "b".toList] (fun _ => 0) true [("b".toList, 5)] = .error .runtimeError := ⟨rfl, rfl⟩

end Neorl.Save
