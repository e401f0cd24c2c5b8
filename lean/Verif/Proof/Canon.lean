import Verif.Model.RealParser
import Verif.Proof.ParseEq
import Verif.Proof.Strict
import Verif.Proof.Life
/-!
# Lemmas: the parser of the code in the indexing model
-/

namespace Splitgill

theorem canonDict_eq : ∀ d : Dict, canonDict d = sortBy (fun a b => strLe a.1 b.1) (d.map (fun kv => (kv.1, canon kv.2)))
  | [] => by simp [canonDict, sortBy]
  | (k, v) :: r => by rw [canonDict, canonDict_eq r]; rfl

theorem canonList_eq : ∀ l : List Value, canonList l = l.map canon
  | [] => by simp [canonList]
  | v :: r => by rw [canonList, canonList_eq r]; rfl

theorem canonDict_perm (d : Dict) : (canonDict d).Perm (d.map (fun kv => (kv.1, canon kv.2))) := by
  rw [canonDict_eq]; exact sortBy_perm _ _

theorem akeys_map (d : Dict) (f : Value → Value) : akeys (d.map (fun kv => (kv.1, f kv.2))) = akeys d := by
  simp [akeys, List.map_map, Function.comp_def]

theorem aget_map_val (k : PyStr) (f : Value → Value) : ∀ d : Dict, aget k (d.map (fun kv => (kv.1, f kv.2))) = (aget k d).map f
  | [] => rfl
  | (k', v) :: r => by
    rw [List.map_cons, aget_cons, aget_cons, aget_map_val k f r]
    split <;> rfl

theorem aget_of_perm {d d' : Dict} (h : d.Perm d') (hn : (akeys d).Nodup) (k : PyStr) : aget k d = aget k d' := by
  have hn' : (akeys d').Nodup := (h.map Prod.fst).nodup_iff.1 hn
  cases hx : aget k d with
  | some v => exact (aget_of_mem hn' (h.mem_iff.1 (aget_mem hx))).symm
  | none =>
    cases hy : aget k d' with
    | none => rfl
    | some v => rw [aget_of_mem hn (h.mem_iff.2 (aget_mem hy))] at hx; cases hx

theorem akeys_canonDict (d : Dict) : (akeys (canonDict d)).Perm (akeys d) := by
  have := (canonDict_perm d).map Prod.fst
  rw [← akeys_map d canon]
  exact this

theorem aget_canonDict {d : Dict} (hn : (akeys d).Nodup) (k : PyStr) : aget k (canonDict d) = (aget k d).map canon := by
  rw [aget_of_perm (canonDict_perm d) ((akeys_canonDict d).nodup_iff.2 hn), aget_map_val]

theorem canon_se : ∀ v : Value, v.wf = true → SE v (canon v) := by
  apply Value.ind'
  · intro v hv hw
    have : canon v = v := by cases v <;> first | rfl | cases hv
    rw [this]; exact SE.refl hw
  · intro l ih hw
    rw [canon]
    refine VR_list.2 ?_
    rw [canonList_eq, List.forall₂_map_right_iff, List.forall₂_same]
    exact fun v hv => ih v hv (wf_list_iff.1 hw v hv)
  · intro d ih hw
    have hw' := wf_dict_iff.1 hw
    rw [canon]
    refine VR_dict.2 ⟨hw'.1, (akeys_canonDict d).nodup_iff.2 hw'.1, fun k => ?_⟩
    rw [aget_canonDict hw'.1]
    cases hx : aget k d with
    | none => exact .inl ⟨rfl, rfl⟩
    | some v => exact .inr ⟨v, canon v, rfl, rfl, ih k v (aget_mem hx) (hw'.2 k v (aget_mem hx))⟩

theorem canonDict_se {d : Dict} (h : (Value.dict d).wf = true) : SE (.dict d) (.dict (canonDict d)) := by
  have := canon_se _ h
  rwa [canon] at this

theorem canonDict_unique {d d' : Dict} (hn : (akeys d).Nodup)
    (h : (d.map (fun kv => (kv.1, canon kv.2))).Perm (d'.map (fun kv => (kv.1, canon kv.2)))) : canonDict d = canonDict d' := by
  have htot : ∀ a b : PyStr × Value, strLe a.1 b.1 = false → strLe b.1 a.1 = true := by
    intro a b hab
    rcases strLe_total a.1 b.1 with h | h
    · rw [hab] at h; cases h
    · exact h
  have hs := fun d : Dict => sortBy_pairwise (le := fun a b : PyStr × Value => strLe a.1 b.1) htot (fun a b c => strLe_trans) (d.map (fun kv => (kv.1, canon kv.2)))
  have hp : (canonDict d).Perm (canonDict d') := (canonDict_perm d).trans (h.trans (canonDict_perm d').symm)
  refine hp.eq_of_pairwise ?_ (by rw [canonDict_eq]; exact hs d) (by rw [canonDict_eq]; exact hs d')
  rintro ⟨k, v⟩ ⟨k', v'⟩ ha hb h1 h2
  have hk : k = k' := strLe_antisymm k k' h1 h2
  subst hk
  have hn1 : (akeys (canonDict d)).Nodup := (akeys_canonDict d).nodup_iff.2 hn
  have e1 := aget_of_mem hn1 ha
  have e2 := aget_of_mem hn1 (hp.mem_iff.2 hb)
  rw [e1] at e2; cases e2; rfl

theorem canon_eq : ∀ v w : Value, SE v w → canon v = canon w := by
  apply Value.ind' (P := fun v => ∀ w, SE v w → canon v = canon w)
  · intro v hv w h
    rw [h.scalar hv]
  · intro l ih w h
    obtain ⟨l', rfl⟩ := VR_left_list h
    have h' := VR_list.1 h
    clear h
    rw [canon, canon, canonList_eq, canonList_eq]
    congr 1
    induction h' with
    | nil => rfl
    | @cons a b as bs hx ht ih' =>
      rw [List.map_cons, List.map_cons, ih a (by simp) b hx, ih' (fun v hv => ih v (by simp [hv]))]
  · intro d ih w h
    obtain ⟨d', rfl⟩ := VR_left_dict h
    have h' := VR_dict.1 h
    rw [canon, canon]
    congr 1
    apply canonDict_unique h'.1
    have := h'.flatMap_perm (f := fun kv => [(kv.1, canon kv.2)]) (g := fun kv => [(kv.1, canon kv.2)])
      (fun k v w hv hw hr => by rw [ih k v hv w hr])
    rw [List.map_eq_flatMap, List.map_eq_flatMap]; exact this

/-! ## Parsing -/

theorem SE.canonDict {d d' : Dict} (h : SE (.dict d) (.dict d')) : Splitgill.canonDict d = Splitgill.canonDict d' := by
  have := canon_eq _ _ h
  rw [canon, canon] at this
  exact Value.dict.inj this

theorem realParser_order {E : ParseEnv} (hE : E.IgnoresOrder) {d d' : Dict} (h : SE (.dict d) (.dict d')) (o : ParsingOptions) :
    (realParser E).parse d o = (realParser E).parse d' o := by
  simp only [realParser]
  cases hd : parse E o d with
  | ok p =>
    obtain ⟨q, hq, h2, h3, h4⟩ := parse_eq hE h hd
    obtain ⟨pp, pd, pt⟩ := p
    obtain ⟨qp, qd, qt⟩ := q
    dsimp only at h2 h3 h4
    rw [hq]
    dsimp only
    rw [h2.canonDict, h3, h4]
  | error e =>
    cases hd' : parse E o d' with
    | ok q => obtain ⟨p, hp, _⟩ := parse_eq hE h.symm hd'; rw [hd] at hp; cases hp
    | error e' => rfl

theorem realParser_respects {E : ParseEnv} (hE : E.IgnoresOrder) (T : PyStr → Places) :
    (realParser E).RespectsFor (fun id => strictClass (T id)) :=
  fun _ _ _ o h => realParser_order hE h.vr o

end Splitgill
