import Verif.Proof.Each2
import Verif.Spec.Stale
/-!
# Lemmas: what is left in the latest index of records that were changed and then deleted
-/

namespace Splitgill

section
variable {P : Type} {X : Parser P} {db : PyStr} {m : Mongo}

/-- What is in the indices of one record: its documents, and perhaps, if it has no open one, a document `S` in the latest index. -/
structure HoldsStale (es : ES P) (id : PyStr) (D : List (Doc P)) (S : Option (Doc P)) : Prop where
  latest : es.latestOf id = (openOf D).or S
  archived : (es.archived.filter (fun d => decide (d.id = id))).Perm (closedOf D)

theorem latest_open {after : Option Int} {D : List (Doc P)} (hg : GoodDocs D) {d : Doc P} (h : openOf D = some d) (L : Option (Doc P)) :
    (latestAct after D).on ((openOf (trunc after D)).or L) = some d := by
  have hs := latest_step after D hg (fun _ h2 => by rw [h] at h2; cases h2)
  rw [h] at hs
  cases ha : latestAct after D with
  | put x => rw [ha] at hs; exact hs
  | remove => rw [ha] at hs; cases hs
  | leave =>
    rw [ha] at hs
    change openOf (trunc after D) = some d at hs
    change (openOf (trunc after D)).or L = some d
    rw [hs]; rfl

/-- The latest index after a sync, for a record that is deleted: what was there before, or nothing. -/
theorem latest_gone {after : Option Int} {D : List (Doc P)} (hg : GoodDocs D) (h : openOf D = none) (L : Option (Doc P)) :
    (latestAct after D).on ((openOf (trunc after D)).or L) = none ∨
    (latestAct after D).on ((openOf (trunc after D)).or L) = (openOf (trunc after D)).or L ∧
      (openOf (trunc after D) ≠ none → ¬ LastNotNew after D) := by
  cases ha : latestAct after D with
  | put x =>
    obtain ⟨h1, h2⟩ := latestAct_put ha
    rw [openOf_of_mem hg h1 h2] at h
    cases h
  | remove => exact .inl rfl
  | leave =>
    refine .inr ⟨rfl, fun hne hl => ?_⟩
    have := latest_step after D hg hl
    rw [ha, h] at this
    exact hne this

/-- The documents of the record as they were are in the indices. -/
theorem HoldsStale.all {es : ES P} {id : PyStr} {D : List (Doc P)} {S : Option (Doc P)} (hs : LatestOk es) (hg : GoodDocs D)
    (h : HoldsStale es id D S) : ∀ d ∈ D, d ∈ es.all := by
  intro d hd
  rw [mem_all hs]
  cases hlt : d.lt with
  | none => exact .inl ⟨id, by rw [h.latest, openOf_of_mem hg hd hlt]; rfl⟩
  | some e => exact .inr (List.mem_filter.1 (h.archived.mem_iff.2 (List.mem_filter.2 ⟨hd, by rw [hlt]; rfl⟩))).1

/-- A sync of a later state, for one record without uncommitted changes: either it has an open document, which is in the latest index; or
what is in the latest index is nothing, or what was there before. -/
theorem sync_stale {m' : Mongo} {t t' : Int} {id : PyStr} (h : LaterFor X db id t m m') (hm : DbOk db m) (hm' : DbOk db m')
    (maxDocs : Nat) {es : ES P} (hs : SoundIndices t es) (htt : t ≤ t') (hk : KeysUpTo db m' t') (hp : NoPendingOf db id m')
    {S : Option (Doc P)} (hh : HoldsStale es id (recDocs X (committedOptionsOf db m) (m.data db) id) S) :
    ∃ es' S', sync X maxDocs db false m' es = .ok es' ∧ SoundIndices t' es' ∧
      HoldsStale es' id (recDocs X (committedOptionsOf db m') (m'.data db) id) S' ∧
      ∀ x, S' = some x → openOf (recDocs X (committedOptionsOf db m') (m'.data db) id) = none ∧
        ((openOf (recDocs X (committedOptionsOf db m) (m.data db) id) = none ∧ S = some x) ∨
          (openOf (recDocs X (committedOptionsOf db m) (m.data db) id) = some x ∧ ¬ NoUpdateDeleteOf db id t m')) := by
  have htr := h.trunc hm hm'
  have hgood := hm'.good X id
  have hprev := hh.all hs.ok (hm.good X id)
  rw [← htr] at hprev
  have hv := trunc_version hs hgood hprev
  obtain ⟨es', h1, h2, h3⟩ := sync_each_raw hm' X maxDocs hs htt hk
  have ha := hh.archived
  have hl := hh.latest
  rw [← htr, ← hv] at ha hl
  obtain ⟨g1, g2⟩ := h3 id _ rfl ha hp
  have hlast : NoUpdateDeleteOf db id t m' → LastNotNew es.version (recDocs X (committedOptionsOf db m') (m'.data db) id) := by
    intro hd
    apply lastNotNew_version hs hgood hprev
    by_cases hid : id ∈ (m'.data db).map MongoRecord.id
    · obtain ⟨r, hr, rfl⟩ := List.mem_map.1 hid
      exact hd.last hm' X
    · rw [recDocs_nil (hist_none hid)]
      intro _ _ last hl
      cases hl
  rw [← htr, ← hv]
  generalize recDocs X (committedOptionsOf db m') (m'.data db) id = D at *
  clear h3 ha hh hprev htr
  cases ho : openOf D with
  | some d =>
    refine ⟨es', none, h1, h2, ⟨?_, g1⟩, fun x hx => by cases hx⟩
    rw [ho]
    rcases g2 with g2 | ⟨g2, g3⟩
    · rw [g2, hl]; exact latest_open hgood ho S
    · rw [g3, hl, g2, ho]; rfl
  | none =>
    rcases g2 with g2 | ⟨g2, g3⟩
    · rw [hl] at g2
      rcases latest_gone (after := es.version) hgood ho S with e | ⟨e, e'⟩
      · refine ⟨es', none, h1, h2, ⟨by rw [g2, e, ho]; rfl, g1⟩, fun x hx => by cases hx⟩
      · refine ⟨es', (openOf (Splitgill.trunc es.version D)).or S, h1, h2, ⟨by rw [g2, e, ho]; rfl, g1⟩, fun x hx => ⟨rfl, ?_⟩⟩
        cases hp : openOf (Splitgill.trunc es.version D) with
        | none => rw [hp] at hx; exact .inl ⟨rfl, hx⟩
        | some y =>
          rw [hp] at hx
          cases hx
          exact .inr ⟨rfl, fun hd => e' (by rw [hp]; simp) (hlast hd)⟩
    · refine ⟨es', S, h1, h2, ⟨by rw [g3, hl, g2], g1⟩, fun x hx => ⟨rfl, .inl ⟨by rw [g2]; exact ho, hx⟩⟩⟩

/-- What a search finds of the record: its documents, and what is left in the latest index. -/
theorem HoldsStale.found {es : ES P} {t : Int} (hs : SoundIndices t es) {id : PyStr} {D : List (Doc P)} (hg : GoodDocs D)
    {S : Option (Doc P)} (h : HoldsStale es id D S) (hS : S ≠ none → openOf D = none) (v : Int) :
    (foundFor es (.version v) id).Perm ((D ++ S.toList).filter (fun d => d.inRange v)) := by
  refine (found_one hs id v).trans (List.Perm.filter _ ?_)
  rw [h.latest]
  refine (List.Perm.append_left _ h.archived).trans ?_
  cases S with
  | none => rw [Option.or_none, Option.toList_none, List.append_nil]; exact openOf_perm hg
  | some x =>
    have ho := hS (by simp)
    have := openOf_perm hg
    rw [ho] at this ⊢
    exact List.perm_append_comm.trans (List.Perm.append_right _ this)

/-- What a search of the latest version finds of it. -/
theorem found_latest {es : ES P} {t : Int} (hs : SoundIndices t es) (id : PyStr) : foundFor es .latest id = (es.latestOf id).toList := by
  rw [← latest_filter hs id]
  rfl

end

/-- The documents of the record after the calls. -/
abbrev docsAfter {P : Type} (X : Parser P) (U : Unicode) (db : PyStr) (calls : List ApiCall) (id : PyStr) : List (Doc P) :=
  recDocs X (committedOptionsOf db (afterCalls U db calls)) ((afterCalls U db calls).data db) id

/-- As `LeftBehind`, with the documents of the records. -/
def LeftDoc {P : Type} (X : Parser P) (U : Unicode) (db : PyStr) (first : List ApiCall) (parts : List (List ApiCall)) (id : PyStr)
    (x : Doc P) : Prop :=
  ∃ pre part post t, parts = pre ++ part :: post ∧ openOf (docsAfter X U db (first ++ pre.flatten) id) = some x ∧
    ((first ++ pre.flatten).filterMap ApiCall.clock?).getLast? = some t ∧
    ¬ NoUpdateDeleteOf db id t (afterCalls U db (first ++ pre.flatten ++ part)) ∧
    ∀ m ∈ statesOf U db (first ++ pre.flatten ++ part) post, openOf (recDocs X (committedOptionsOf db m) (m.data db) id) = none

variable {U : Unicode} {db : PyStr}

theorem statesOf_cons (U : Unicode) (db : PyStr) (first : List ApiCall) (parts : List (List ApiCall)) :
    statesOf U db first parts = afterCalls U db first :: (statesOf U db first parts).tail := by
  cases parts <;> rfl

theorem stale_parts {P : Type} {X : Parser P} {K : PyStr → DataClass} {id : PyStr}
    (hX : ∀ a b o, DEq (K id) a b → X.parse a o = X.parse b o) (maxDocs : Nat) :
    ∀ (parts : List (List ApiCall)) (first : List ApiCall) (es : ES P) (S : Option (Doc P)) (t : Int),
      (∀ c ∈ first ++ parts.flatten, Fits K U c.stream) →
      Orderly (first ++ parts.flatten) → (∃ v, IsVersion (afterCalls U db first) db v) →
      (first.filterMap ApiCall.clock?).getLast? = some t → SoundIndices t es → HoldsStale es id (docsAfter X U db first id) S →
      (∀ x, S = some x → openOf (docsAfter X U db first id) = none) →
      (∀ m ∈ statesOf U db first parts, NoPendingOf db id m) →
      ∃ es' S' t', runSyncs X maxDocs db es (statesOf U db first parts).tail = .ok es' ∧ SoundIndices t' es' ∧
        HoldsStale es' id (docsAfter X U db (first ++ parts.flatten) id) S' ∧
        ∀ x, S' = some x → openOf (docsAfter X U db (first ++ parts.flatten) id) = none ∧
          ((S = some x ∧ ∀ m ∈ statesOf U db first parts, openOf (recDocs X (committedOptionsOf db m) (m.data db) id) = none) ∨
            LeftDoc X U db first parts id x)
  | [], first, es, S, t, hq, ho, hv, ht, hs, hh, hS, hp => by
    rw [List.flatten_nil, List.append_nil]
    refine ⟨es, S, t, rfl, hs, hh, fun x hx => ⟨hS x hx, .inl ⟨hx, fun m hm => ?_⟩⟩⟩
    rw [statesOf, List.mem_singleton] at hm
    subst hm
    exact hS x hx
  | part :: parts, first, es, S, t, hq, ho, ⟨v, hv⟩, ht, hs, hh, hS, hp => by
    rw [List.flatten_cons, ← List.append_assoc] at ho hq ⊢
    have ok := life_dbOk ho.left.left hv
    obtain ⟨t0, h1, h2, s', hi, h3, h4⟩ := life_evolves (fun c hc => hq c (List.mem_append_left _ hc)) ho.left hv
    rw [ht] at h1
    cases h1
    have hl := h4.laterFor hX h2 h3
    obtain ⟨v', hv'⟩ := hl.isVersion ok
    have ok' := life_dbOk ho.left hv'
    obtain ⟨t', k1, k2, _⟩ := life_evolves (K := K) (a := first ++ part) (b := [])
      (by rw [List.append_nil]; exact fun c hc => hq c (List.mem_append_left _ hc)) (by rw [List.append_nil]; exact ho.left) hv'
    have htt : t ≤ t' := by
      rw [List.filterMap_append] at k1
      have hc := ho.left.clock
      rw [List.filterMap_append, List.pairwise_append] at hc
      cases hb : part.filterMap ApiCall.clock? with
      | nil =>
        rw [hb, List.append_nil, ht] at k1
        cases k1; omega
      | cons x l =>
        rw [hb, List.getLast?_append_of_ne_nil _ (by simp)] at k1
        have := hc.2.2 t (List.mem_of_getLast? ht) t' (by rw [hb]; exact List.mem_of_getLast? k1)
        omega
    have hp' : ∀ m ∈ statesOf U db (first ++ part) parts, NoPendingOf db id m := fun m hm => hp m (List.mem_cons_of_mem _ hm)
    obtain ⟨es1, S1, g1, g2, g3, g4⟩ := sync_stale hl ok ok' maxDocs hs htt k2.keysUpTo (hp' _ (by rw [statesOf_cons]; simp)) hh
    obtain ⟨es', S', t'', e1, e2, e3, e4⟩ := stale_parts hX maxDocs parts (first ++ part) es1 S1 t' hq ho ⟨v', hv'⟩ k1 g2 g3
      (fun x hx => (g4 x hx).1) hp'
    refine ⟨es', S', t'', ?_, e2, e3, fun x hx => ⟨(e4 x hx).1, ?_⟩⟩
    · rw [statesOf, List.tail_cons, statesOf_cons, runSyncs, g1]
      exact e1
    · rcases (e4 x hx).2 with ⟨a, b⟩ | ⟨pre, p, post, u, rfl, b, c, d, e⟩
      · rcases (g4 x a).2 with ⟨c, d⟩ | ⟨c, d⟩
        · left
          refine ⟨d, fun m hm => ?_⟩
          rw [statesOf] at hm
          rcases List.mem_cons.1 hm with rfl | hm
          · exact c
          · exact b m hm
        · right
          refine ⟨[], part, parts, t, rfl, ?_, ?_, ?_, ?_⟩ <;> rw [List.flatten_nil, List.append_nil]
          · exact c
          · exact ht
          · exact d
          · exact b
      · right
        refine ⟨part :: pre, p, post, u, rfl, ?_, ?_, ?_, ?_⟩ <;> rw [List.flatten_cons, ← List.append_assoc]
        · exact b
        · exact c
        · exact d
        · exact e

theorem DbOk.existsNow {P : Type} {m : Mongo} (hm : DbOk db m) (X : Parser P) {id : PyStr} (h : ExistsNow db id m) :
    openOf (recDocs X (committedOptionsOf db m) (m.data db) id) ≠ none := by
  intro ho
  obtain ⟨v, d, h1, h2⟩ := h
  obtain ⟨w, hw⟩ := hm.deletedNow X (id := id) (by intro e; rw [e] at h1; cases h1) ho
  rw [hw] at h1
  cases h1
  exact h2 rfl

/-- The indices after syncs between calls, for a calm record. -/
theorem calm_found {E : ParseEnv} (hE : E.IgnoresOrder) (hU : U.Sane) (maxDocs : Nat) {first : List ApiCall}
    {parts : List (List ApiCall)} (ho : Orderly (first ++ parts.flatten)) (hv : ∃ v, IsVersion (afterCalls U db first) db v)
    {id : PyStr} (h : CalmRecord U db first parts id) {es es0 : ES (Option ParsedData)}
    (h1 : runSyncs (realParser E) maxDocs db [] (statesOf U db first parts) = .ok es)
    (h0 : sync (realParser E) maxDocs db false (afterCalls U db (first ++ parts.flatten)) [] = .ok es0) :
    ∃ S : Option (Doc (Option ParsedData)),
      (∀ v, (foundFor es (.version v) id).Perm (foundFor es0 (.version v) id ++ S.toList.filter (fun d => d.inRange v)) ∧
        (foundFor es0 (.version v) id).length ≤ 1) ∧
      foundFor es .latest id = foundFor es0 .latest id ++ S.toList ∧
      ∀ x, S = some x → ¬ ExistsNow db id (afterCalls U db (first ++ parts.flatten)) ∧
        LeftBehind E U maxDocs db first parts id x := by
  have hR := realParser_respects (E := E) hE (fun _ => placesOf U _ h.noPuns id)
  have hX : ∀ a b o, DEq ((classFor id (placesOf U _ h.noPuns id) id).named) a b → (realParser E).parse a o = (realParser E).parse b o := by
    rw [classFor_self]
    exact fun a b o => hR.named id a b o
  have hq : ∀ c ∈ first ++ parts.flatten, Fits (fun i => (classFor id (placesOf U _ h.noPuns id) i).named) U c.stream := fun c hc =>
    fits_classFor hU id h.noPuns (fun r hr => List.mem_flatMap.2 ⟨c, hc, hr⟩)
  -- one sync into new indices
  have one : ∀ (calls : List ApiCall), Orderly calls → (∃ v, IsVersion (afterCalls U db calls) db v) →
      NoPendingOf db id (afterCalls U db calls) →
      ∃ es t, sync (realParser E) maxDocs db false (afterCalls U db calls) [] = .ok es ∧ SoundIndices t es ∧
        (calls.filterMap ApiCall.clock?).getLast? = some t ∧ HoldsFor es id (docsAfter (realParser E) U db calls id) := by
    rintro calls ho ⟨v, hv⟩ hp
    obtain ⟨t, k1, k2, _⟩ := life_evolves (K := fun _ => plainClass) (U := U) (a := calls) (b := []) (fun c _ => fits_plain U c.stream)
      (by rw [List.append_nil]; exact ho) hv
    obtain ⟨es, g1, g2, g3⟩ := sync_each (life_dbOk ho hv) (realParser E) maxDocs (soundIndices_nil (P := Option ParsedData) t)
      (Int.le_refl _) k2.keysUpTo
    refine ⟨es, t, g1, g2, k1, g3 id _ rfl ?_ ?_ hp⟩
    · rw [version_nil, trunc_none]
      exact ⟨rfl, .refl _⟩
    · intro h1
      simp [version_nil, trunc_none, openOf] at h1
  have hoks := life_dbOks parts first ho hv
  obtain ⟨ms, hms⟩ := statesOf_getLast U db parts first
  have hlast : afterCalls U db (first ++ parts.flatten) ∈ statesOf U db first parts := by rw [hms]; simp
  have hm := hoks _ hlast
  have hg := hm.good (realParser E) id
  obtain ⟨es1, t, g1, g2, g3, g4⟩ := one first ho.left hv (h.noPending _ (by rw [statesOf_cons]; simp))
  obtain ⟨es', S, t', e1, e2, e3, e4⟩ := stale_parts hX maxDocs parts first es1 none t hq ho hv g3 g2 ⟨by rw [g4.latest, Option.or_none], g4.archived⟩
    (fun x hx => by cases hx) h.noPending
  have : es' = es := by
    rw [statesOf_cons, runSyncs, g1] at h1
    exact Except.ok.inj (e1.symm.trans h1)
  subst this
  obtain ⟨es0', t0, k1, k2, _, k4⟩ := one (first ++ parts.flatten) ho hm.isVersion (h.noPending _ hlast)
  rw [h0] at k1
  cases k1
  refine ⟨S, fun v => ⟨?_, by rw [(k4.found k2 hg v).length_eq]; exact hm.found_le _ id v⟩, ?_, fun x hx => ?_⟩
  · refine (e3.found e2 hg (fun hne => ?_) v).trans ?_
    · obtain ⟨x, hx⟩ := Option.ne_none_iff_exists'.1 hne
      exact (e4 x hx).1
    · rw [List.filter_append]
      exact List.Perm.append_right _ (k4.found k2 hg v).symm
  · rw [found_latest e2, found_latest k2, e3.latest, k4.latest]
    cases S with
    | none => simp
    | some x => rw [(e4 x rfl).1]; rfl
  · refine ⟨fun hex => hm.existsNow (realParser E) hex (e4 x hx).1, ?_⟩
    rcases (e4 x hx).2 with ⟨a, _⟩ | ⟨pre, part, post, u, rfl, b, c, d, e⟩
    · cases a
    · have hmem : ∀ (pre post : List (List ApiCall)) (first : List ApiCall),
          afterCalls U db (first ++ pre.flatten) ∈ statesOf U db first (pre ++ post) := by
        intro pre
        induction pre with
        | nil => intro post first; rw [List.flatten_nil, List.append_nil, statesOf_cons]; simp
        | cons p pre ih =>
          intro post first
          rw [List.flatten_cons, ← List.append_assoc, List.cons_append, statesOf]
          exact List.mem_cons_of_mem _ (ih post (first ++ p))
      have hk := hmem pre (part :: post) first
      have hok := hoks _ hk
      rw [List.flatten_append, ← List.append_assoc] at ho
      obtain ⟨esk, tk, a1, a2, _, a4⟩ := one (first ++ pre.flatten) ho.left hok.isVersion (h.noPending _ hk)
      refine ⟨pre, part, post, u, esk, rfl, a1, ?_, c, d, fun m hm hex => ?_⟩
      · rw [found_latest a2, a4.latest, b]; rfl
      · have hsub : ∀ (pre post : List (List ApiCall)) (first part : List ApiCall),
            ∀ m ∈ statesOf U db (first ++ pre.flatten ++ part) post, m ∈ statesOf U db first (pre ++ part :: post) := by
          intro pre
          induction pre with
          | nil => intro post first part m hm; rw [List.flatten_nil, List.append_nil] at hm; exact List.mem_cons_of_mem _ hm
          | cons p pre ih =>
            intro post first part m hm
            rw [List.flatten_cons, ← List.append_assoc] at hm
            exact List.mem_cons_of_mem _ (ih post (first ++ p) part m hm)
        exact (hoks m (hsub pre post first part m hm)).existsNow (realParser E) hex (e m hm)

end Splitgill
