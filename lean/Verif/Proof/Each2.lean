import Verif.Proof.Each
import Verif.Proof.Filter3
/-!
# Lemmas: one record among others, after calls and syncs
-/

namespace Splitgill

variable {U : Unicode} {db : PyStr}

theorem LaterFor.isVersion {P : Type} {X : Parser P} {db id : PyStr} {m m' : Mongo} {t : Int} (h : LaterFor X db id t m m')
    (hm : DbOk db m) : ∃ v, IsVersion m' db v := by
  obtain ⟨⟨v, o⟩, hmem⟩ := List.exists_mem_of_ne_nil _ hm.options.nonempty
  have := committedOptionsOf_mem.1 ((h.opts v o).1 hmem).1
  obtain ⟨_, d, h1, h2, h3⟩ := (getOptions_keys (db := db) (m := m') (some v)).1 (List.mem_map_of_mem this)
  exact ⟨v, .inr ⟨d, h1, h2, h3⟩⟩

theorem LifeInv.keysUpTo {K : PyStr → DataClass} {m : Mongo} {s : Store} {t : Int} (h : LifeInv K db m s (some t)) :
    KeysUpTo db m t := by
  intro id w hw _
  rcases hw with hw | hw
  · change w ∈ (histOf (m.data db) id).map Prod.fst at hw
    rw [(h.hist id).versions] at hw
    obtain ⟨vd, h1, rfl⟩ := List.mem_map.1 hw
    obtain ⟨x, hx, hle⟩ := h.vers id vd h1
    cases hx; exact hle
  · obtain ⟨o, ho⟩ := exists_of_key hw
    have := committedOptionsOf_mem.1 ho
    obtain ⟨_, d, h1, _, h3⟩ := (getOptions_keys (db := db) (m := m) (some w)).1 (List.mem_map_of_mem this)
    obtain ⟨x, hx, hle⟩ := h.optVers d h1 w h3
    cases hx; exact hle

theorem life_timelineFor {P : Type} {X : Parser P} {K : PyStr → DataClass} {id : PyStr}
    (hX : ∀ a b o, DEq (K id) a b → X.parse a o = X.parse b o) :
    ∀ (parts : List (List ApiCall)) (first : List ApiCall) (s : Int), (∀ c ∈ first ++ parts.flatten, Fits K U c.stream) →
      Orderly (first ++ parts.flatten) → (∃ v, IsVersion (afterCalls U db first) db v) →
      (∀ t, (first.filterMap ApiCall.clock?).getLast? = some t → s ≤ t) →
      EachPart (NoUpdateDeleteOf db id) U db first parts → (∀ m ∈ statesOf U db first parts, NoPendingOf db id m) →
      TimelineFor X db id s (statesOf U db first parts)
  | [], first, s, hq, ho, ⟨v, hv⟩, hs, _, hp => by
    have hq' : ∀ c ∈ first ++ [], Fits K U c.stream := by simpa using hq
    have ho' : Orderly (first ++ []) := by simpa using ho
    obtain ⟨t, h1, h2, _⟩ := life_evolves hq' ho' hv
    rw [List.append_nil] at ho'
    exact ⟨life_dbOk ho' hv, hp _ (by simp [statesOf]), t, hs t h1, h2.keysUpTo⟩
  | part :: parts, first, s, hq, ho, ⟨v, hv⟩, hs, he, hp => by
    rw [List.flatten_cons, ← List.append_assoc] at ho hq
    have ok := life_dbOk ho.left.left hv
    obtain ⟨t, h1, h2, s', hi, h3, h4⟩ := life_evolves (fun c hc => hq c (List.mem_append_left _ hc)) ho.left hv
    have hl := h4.laterFor hX h2 h3
    have ih := life_timelineFor hX parts (first ++ part) t hq ho (hl.isVersion ok) (fun t' ht' => by
      rw [List.filterMap_append] at ht'
      have hc := ho.left.clock
      rw [List.filterMap_append, List.pairwise_append] at hc
      cases hb : part.filterMap ApiCall.clock? with
      | nil =>
        rw [hb, List.append_nil, h1] at ht'
        cases ht'; omega
      | cons x l =>
        rw [hb, List.getLast?_append_of_ne_nil _ (by simp)] at ht'
        have := hc.2.2 t (List.mem_of_getLast? h1) t' (by rw [hb]; exact List.mem_of_getLast? ht')
        omega) he.2 (fun m hm => hp m (List.mem_cons_of_mem _ hm))
    have e : statesOf U db (first ++ part) parts = afterCalls U db (first ++ part) :: (statesOf U db (first ++ part) parts).tail := by
      cases parts <;> rfl
    have hp0 := hp _ List.mem_cons_self
    rw [e] at ih
    rw [statesOf, e]
    exact ⟨ok, hp0, t, hs t h1, h2.keysUpTo, hl, he.1 t h1, ih⟩

/-- All states are valid. -/
theorem life_dbOks : ∀ (parts : List (List ApiCall)) (first : List ApiCall), Orderly (first ++ parts.flatten) →
    (∃ v, IsVersion (afterCalls U db first) db v) → ∀ m ∈ statesOf U db first parts, DbOk db m
  | [], first, ho, ⟨v, hv⟩, m, hm => by
    rw [List.flatten_nil, List.append_nil] at ho
    rw [statesOf, List.mem_singleton] at hm
    subst hm
    exact life_dbOk ho hv
  | part :: parts, first, ho, ⟨v, hv⟩, m, hm => by
    rw [List.flatten_cons, ← List.append_assoc] at ho
    have ok := life_dbOk ho.left.left hv
    rcases List.mem_cons.1 hm with rfl | hm
    · exact ok
    · obtain ⟨t, h1, h2, s', hi, h3, h4⟩ := life_evolves (K := fun _ => plainClass) (fun c _ => fits_plain U c.stream) ho.left hv
      have hl := h4.laterFor (X := (⟨fun _ _ => (), fun _ _ => true, fun _ _ => true⟩ : Parser Unit)) (id := []) (fun _ _ _ _ => rfl) h2 h3
      exact life_dbOks parts (first ++ part) ho (hl.isVersion ok) m hm

theorem runSyncs_ok {P : Type} (X : Parser P) (maxDocs : Nat) : ∀ (ms : List Mongo) (es : ES P), (∀ m ∈ ms, DbOk db m) → LatestOk es →
    ∃ es', runSyncs X maxDocs db es ms = .ok es' ∧ LatestOk es'
  | [], es, _, h => ⟨es, rfl, h⟩
  | m :: ms, es, hm, h => by
    obtain ⟨es1, _, h1, h2, _⟩ := sync_effect (hm m (by simp)) X maxDocs h
    obtain ⟨es2, h3, h4⟩ := runSyncs_ok X maxDocs ms es1 (fun m h => hm m (by simp [h])) h2
    exact ⟨es2, by simp only [runSyncs, h1, h3], h4⟩

/-- What is known of the data of one record. -/
def classFor (id : PyStr) (T : Places) (i : PyStr) : DataClass := if i = id then strictClass T else plainClass

theorem classFor_self (id : PyStr) (T : Places) : classFor id T id = strictClass T := if_pos rfl

theorem fits_classFor (hU : U.Sane) {rs : List Record} (id : PyStr) (hn : NoPunsAmong U (rs.filter (fun r => decide (r.id = id))))
    {l : List Record} (hl : ∀ r ∈ l, r ∈ rs) : Fits (fun i => (classFor id (placesOf U _ hn id) i).named) U l := by
  refine Fits.named (K := classFor id (placesOf U _ hn id)) (fun r => fieldNames_of_clean (Props.C16_names_clean U hU r)) ?_
  intro r hr
  unfold classFor
  split
  · rename_i h
    exact ⟨prepareRecordData_wf U r, fun _ v hv hs => ⟨r, List.mem_filter.2 ⟨hl r hr, by simpa using h⟩, h, hv, hs⟩⟩
  · exact prepareRecordData_wf U r

theorem perm_le_one {α : Type} {a b c : List α} (h : a.Perm c) (h' : b.Perm c) (hc : c.length ≤ 1) : a = b := by
  match c, hc with
  | [], _ => rw [List.perm_nil.1 h, List.perm_nil.1 h']
  | [x], _ => rw [List.perm_singleton.1 h, List.perm_singleton.1 h']

theorem DbOk.found_le {P : Type} {m : Mongo} (hm : DbOk db m) (X : Parser P) (id : PyStr) (v : Int) :
    ((recDocs X (committedOptionsOf db m) (m.data db) id).filter (fun d => d.inRange v)).length ≤ 1 := by
  have hg := hm.good X id
  generalize recDocs X (committedOptionsOf db m) (m.data db) id = D at hg
  induction D with
  | nil => simp
  | cons x l ih =>
    rw [List.filter_cons]
    split
    · rename_i hx
      have : l.filter (fun d => d.inRange v) = [] := by
        rw [List.filter_eq_nil_iff]
        intro y hy hyv
        obtain ⟨e, he, hle⟩ := (List.pairwise_cons.1 hg.pair).1 y hy
        have h1 := (inRange_iff.1 hx).2 e he
        have h2 := (inRange_iff.1 hyv).1
        omega
      simp [this]
    · exact ih hg.tail

/-- The indices after syncs between the calls, and after one sync at the end, for a record that is quiet. -/
theorem quiet_same {E : ParseEnv} (hE : E.IgnoresOrder) (hU : U.Sane) (maxDocs : Nat) {first : List ApiCall}
    {parts : List (List ApiCall)} (ho : Orderly (first ++ parts.flatten)) (hv : ∃ v, IsVersion (afterCalls U db first) db v)
    {id : PyStr} (h : QuietRecord U db first parts id) {es es0 : ES (Option ParsedData)}
    (h1 : runSyncs (realParser E) maxDocs db [] (statesOf U db first parts) = .ok es)
    (h0 : sync (realParser E) maxDocs db false (afterCalls U db (first ++ parts.flatten)) [] = .ok es0) (v : Int) :
    foundFor es (.version v) id = foundFor es0 (.version v) id := by
  have hR := realParser_respects (E := E) hE (fun _ => placesOf U _ h.noPuns id)
  have hX : ∀ a b o, DEq ((classFor id (placesOf U _ h.noPuns id) id).named) a b → (realParser E).parse a o = (realParser E).parse b o := by
    rw [classFor_self]
    exact fun a b o => hR.named id a b o
  have hq : ∀ c ∈ first ++ parts.flatten, Fits (fun i => (classFor id (placesOf U _ h.noPuns id) i).named) U c.stream := fun c hc =>
    fits_classFor hU id h.noPuns (fun r hr => List.mem_flatMap.2 ⟨c, hc, hr⟩)
  obtain ⟨t, htl, _⟩ := life_evolves (K := fun _ => plainClass) (a := first) (b := []) (fun c _ => fits_plain U c.stream)
    (by simpa using ho.left) hv.choose_spec
  have ht := life_timelineFor hX parts first t hq ho hv (fun t' h' => by rw [htl] at h'; cases h'; omega) h.noUpdateDelete h.noPending
  obtain ⟨ms, hms⟩ := statesOf_getLast U db parts first
  have hm := life_dbOks parts first ho hv _ (by rw [hms]; simp : afterCalls U db (first ++ parts.flatten) ∈ statesOf U db first parts)
  have hg := hm.good (realParser E) id
  have key : ∀ (l : List Mongo) (m : Mongo) (s : Int) (es : ES (Option ParsedData)), l.getLast? = some m → DbOk db m → TimelineFor (realParser E) db id s l →
      runSyncs (realParser E) maxDocs db [] l = .ok es →
      (foundFor es (.version v) id).Perm ((recDocs (realParser E) (committedOptionsOf db m) (m.data db) id).filter (fun d => d.inRange v)) := by
    intro l m s es hl hm ht hr
    cases l with
    | nil => cases hl
    | cons a l =>
      obtain ⟨es', t', k1, k2, k3⟩ := runSyncs_each_first (realParser E) db id maxDocs l a s ht
      rw [hr] at k1
      cases k1
      rw [List.getLast?_eq_some_getLast (by simp)] at hl
      have e : (a :: l).getLast (by simp) = m := Option.some.inj hl
      rw [e] at k3
      exact k3.found k2 (hm.good _ id) v
  refine perm_le_one (key _ _ _ es (by rw [hms]; simp) hm ht h1) (key [afterCalls U db (first ++ parts.flatten)] _ t es0 rfl hm ?_ (by
    simp only [runSyncs, h0])) (hm.found_le _ id v)
  have := life_timelineFor (X := realParser E) (U := U) (db := db) hX [] (first ++ parts.flatten) t
    (by rw [List.flatten_nil, List.append_nil]; exact hq) (by rw [List.flatten_nil, List.append_nil]; exact ho)
    hm.isVersion (fun t' h' => by
      rw [List.filterMap_append] at h'
      have hc := ho.clock
      rw [List.filterMap_append, List.pairwise_append] at hc
      cases hb : parts.flatten.filterMap ApiCall.clock? with
      | nil =>
        rw [hb, List.append_nil, htl] at h'
        cases h'; omega
      | cons x l =>
        rw [hb, List.getLast?_append_of_ne_nil _ (by simp)] at h'
        have := hc.2.2 t (List.mem_of_getLast? htl) t' (by rw [hb]; exact List.mem_of_getLast? h')
        omega) trivial (fun m hm => h.noPending m (by
      rw [statesOf, List.mem_singleton] at hm
      rw [hms, hm]; simp))
  exact this

theorem LifeInv.noPendingOf {K : PyStr → DataClass} {m : Mongo} {s : Store} {hi : Option Int} {id : PyStr}
    (hl : LifeInv K db m s hi) (hp : NoPendingOf db id m) : (s id).pending = none := by
  have hrep := hl.rep.rep id
  cases hf : findRecord id (m.data db) with
  | none => rw [hf] at hrep; exact (Rep.none_iff.1 hrep).2
  | some r =>
    have hr : r ∈ m.data db := List.mem_of_find?_eq_some hf
    have := findRecord_id hf
    subst this
    exact (hl.pending_iff hr).2 (Option.isSome_iff_ne_none.2 (hp r hr rfl))

/-- A query finds a record by what a search without a query finds of it. -/
theorem mem_searchFor {es es0 : ES (Option ParsedData)} {v : Int} {id : PyStr}
    (h : foundFor es (.version v) id = foundFor es0 (.version v) id) (Q : QueryEnv) (q : EsQuery) :
    id ∈ foundIds (es.searchFor Q (.version v) q) ↔ id ∈ foundIds (es0.searchFor Q (.version v) q) := by
  have key : ∀ es : ES (Option ParsedData), id ∈ foundIds (es.searchFor Q (.version v) q) ↔
      ∃ d ∈ foundFor es (.version v) id, q.finds Q d = true := by
    intro es
    unfold foundIds ES.searchFor
    constructor
    · intro hm
      obtain ⟨d, hd, hid⟩ := List.mem_map.1 hm
      obtain ⟨g1, g2⟩ := List.mem_filter.1 hd
      exact ⟨d, mem_found_iff.2 ⟨g1, hid⟩, g2⟩
    · rintro ⟨d, hd, hq⟩
      obtain ⟨g1, g2⟩ := mem_found_iff.1 hd
      exact List.mem_map.2 ⟨d, List.mem_filter.2 ⟨g1, hq⟩, g2⟩
  rw [key, key, h]

end Splitgill
