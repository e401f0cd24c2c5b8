import Verif.Proof.BulkOps
import Verif.Proof.Search2
import Verif.Proof.Bulk3
import Verif.Spec.Schedule
/-!
# Lemmas: the same documents, in whatever order
-/

namespace Splitgill

section
variable {P : Type}

theorem SameDocs.refl (es : ES P) : SameDocs es es := ⟨fun _ => Iff.rfl, fun _ => List.Perm.refl _⟩
theorem SameDocs.symm {es es' : ES P} (h : SameDocs es es') : SameDocs es' es :=
  ⟨fun ix => (h.indices ix).symm, fun ix => (h.docs ix).symm⟩
theorem SameDocs.trans {a b c : ES P} (h : SameDocs a b) (h' : SameDocs b c) : SameDocs a c :=
  ⟨fun ix => (h.indices ix).trans (h'.indices ix), fun ix => (h.docs ix).trans (h'.docs ix)⟩

theorem SameDocs.keys {es es' : ES P} (h : SameDocs es es') (hn : (akeys es).Nodup) (hn' : (akeys es').Nodup) :
    (akeys es).Perm (akeys es') := (List.perm_ext_iff_of_nodup hn hn').2 h.indices

/-- The indices by their names. -/
theorem es_eq_keys {es : ES P} (hn : (akeys es).Nodup) : es = (akeys es).map (fun ix => (ix, es.docs ix)) := by
  unfold akeys
  rw [List.map_map]
  conv_lhs => rw [← List.map_id es]
  refine List.map_congr_left fun x hx => ?_
  simp only [id_eq, Function.comp_apply, ES.docs]
  rw [(aget_iff_mem hn).2 hx]
  rfl

theorem all_eq_keys {es : ES P} (hn : (akeys es).Nodup) :
    es.all = (akeys es).flatMap (fun ix => (es.docs ix).map Prod.snd) := by
  unfold ES.all
  conv_lhs => rw [es_eq_keys hn]
  rw [List.flatMap_map]

theorem flatMap_perm_congr {α β : Type} {f g : α → List β} : ∀ {l : List α}, (∀ a ∈ l, (f a).Perm (g a)) → (l.flatMap f).Perm (l.flatMap g)
  | [], _ => .refl _
  | a :: l, h => by
    simp only [List.flatMap_cons]
    exact (h a List.mem_cons_self).append (flatMap_perm_congr (fun b hb => h b (List.mem_cons_of_mem _ hb)))

theorem SameDocs.all {es es' : ES P} (h : SameDocs es es') (hn : (akeys es).Nodup) (hn' : (akeys es').Nodup) :
    es.all.Perm es'.all := by
  rw [all_eq_keys hn, all_eq_keys hn']
  exact ((h.keys hn hn').flatMap_right _).trans (flatMap_perm_congr fun ix _ => (h.docs ix).map _)

theorem max?_perm {α : Type} [Max α] [LE α] [Std.IsLinearOrder α] [Std.LawfulOrderMax α] {l l' : List α} (h : l.Perm l') : l.max? = l'.max? := by
  cases e : l'.max? with
  | none =>
    rw [List.max?_eq_none_iff] at e ⊢
    subst e
    exact h.eq_nil
  | some a =>
    rw [List.max?_eq_some_iff] at e ⊢
    exact ⟨h.mem_iff.2 e.1, fun b hb => e.2 b (h.mem_iff.1 hb)⟩

theorem SameDocs.version {es es' : ES P} (h : SameDocs es es') (hn : (akeys es).Nodup) (hn' : (akeys es').Nodup) :
    es.version = es'.version := by
  have := h.all hn hn'
  unfold ES.version
  exact max?_perm ((this.map _).append (this.filterMap _))

theorem arcs_eq_keys (es : ES P) : es.arcs = (akeys es).filterMap (fun ix => match ix with | .arc n => some n | .latest => none) := by
  unfold ES.arcs akeys
  rw [List.filterMap_map]
  rfl

theorem SameDocs.arcStatus {es es' : ES P} (h : SameDocs es es') (hn : (akeys es).Nodup) (hn' : (akeys es').Nodup) :
    es.arcStatus = es'.arcStatus := by
  unfold ES.arcStatus
  rw [arcs_eq_keys, arcs_eq_keys, max?_perm ((h.keys hn hn').filterMap _)]
  split
  · rfl
  · rw [(h.docs _).length_eq]

theorem SameDocs.latestOk {es es' : ES P} (h : SameDocs es es') (hn : (akeys es').Nodup) (hok : LatestOk es) : LatestOk es' := by
  have hp : (akeys (es.docs .latest)).Perm (akeys (es'.docs .latest)) := (h.docs .latest).map _
  exact ⟨hn, hp.nodup_iff.1 hok.nodup, fun hm => hok.hasId (hp.mem_iff.2 hm)⟩

theorem SameDocs.latestOf {es es' : ES P} (h : SameDocs es es') (hok : LatestOk es) (hok' : LatestOk es') (id : PyStr) :
    es.latestOf id = es'.latestOf id := by
  unfold ES.latestOf
  cases e : aget (some id) (es'.docs .latest) with
  | none =>
    rw [aget_eq_none_iff] at e ⊢
    exact fun hm => e (((h.docs .latest).map Prod.fst).mem_iff.1 hm)
  | some d =>
    rw [aget_iff_mem hok'.nodup] at e
    rw [aget_iff_mem hok.nodup]
    exact (h.docs .latest).mem_iff.2 e

theorem SameDocs.deleteArcs {es es' : ES P} (h : SameDocs es es') : SameDocs es.deleteArcs es'.deleteArcs := by
  refine ⟨fun ix => ?_, fun ix => ?_⟩
  · cases ix with
    | latest =>
      have : ∀ es : ES P, Ix.latest ∈ akeys es.deleteArcs ↔ Ix.latest ∈ akeys es := by
        intro es
        simp only [ES.deleteArcs, akeys, List.mem_map, List.mem_filter, decide_eq_true_eq]
        exact ⟨fun ⟨x, hx, e⟩ => ⟨x, hx.1, e⟩, fun ⟨x, hx, e⟩ => ⟨x, ⟨hx, e⟩, e⟩⟩
      rw [this, this]
      exact h.indices _
    | arc n =>
      have : ∀ es : ES P, Ix.arc n ∉ akeys es.deleteArcs := by
        intro es hm
        simp only [ES.deleteArcs, akeys, List.mem_map, List.mem_filter, decide_eq_true_eq] at hm
        obtain ⟨x, hx, e⟩ := hm
        rw [hx.2] at e; cases e
      exact ⟨fun hm => absurd hm (this es), fun hm => absurd hm (this es')⟩
  · cases ix with
    | latest => rw [deleteArcs_docs, deleteArcs_docs]; exact h.docs _
    | arc n =>
      have : ∀ es : ES P, es.deleteArcs.docs (.arc n) = [] := by
        intro es
        unfold ES.docs
        rw [aget_eq_none_iff.2]
        · rfl
        · intro hm
          simp only [ES.deleteArcs, akeys, List.mem_map, List.mem_filter, decide_eq_true_eq] at hm
          obtain ⟨x, hx, e⟩ := hm
          rw [hx.2] at e; cases e
      rw [this, this]

/-- The same ops, applied to the same documents. -/
theorem SameDocs.applyOps {es es' : ES P} (h : SameDocs es es') (hok : LatestOk es) (hok' : LatestOk es') {ops : List (BulkOp P)}
    (hg : ∀ op ∈ ops, GenOp op) (hc : Consistent ops) : SameDocs (es.applyOps ops) (es'.applyOps ops) := by
  refine ⟨fun ix => ?_, fun ix => ?_⟩
  · rw [applyOps_keys, applyOps_keys, h.indices]
  · cases ix with
    | latest =>
      refine latest_perm (hok.applyOps hg) (hok'.applyOps hg) (fun id => ?_)
      have h1 := applyOps_latestOf hok hg hc id
      have h2 := applyOps_latestOf hok' hg hc id
      by_cases hex : ∃ op ∈ ops, op.latestId = some id
      · obtain ⟨op, hop, hid⟩ := hex
        rw [h1.1 op hop hid, h2.1 op hop hid]
      · rw [h1.2 (fun op hop e => hex ⟨op, hop, e⟩), h2.2 (fun op hop e => hex ⟨op, hop, e⟩)]
        exact h.latestOf hok hok' id
    | arc k =>
      rw [applyOps_arcDocs hg, applyOps_arcDocs hg]
      exact (h.docs _).append_right _

theorem SyncCall.ops_run {X : Parser P} {maxDocs : Nat} {db : PyStr} {m : Mongo} {es es0 : ES P} {c : SyncCall} {ops : List (BulkOp P)}
    (h : c.ops X maxDocs db m es = .ok (es0, ops)) : c.run X maxDocs db m es = .ok (es0.applyOps ops) := by
  cases c with
  | sync resync => simp only [SyncCall.ops] at h; simp only [SyncCall.run, Splitgill.sync, h]
  | resyncArcs =>
    simp only [SyncCall.ops] at h
    simp only [SyncCall.run, Splitgill.resyncArcs]
    split at h
    · cases h
    · rename_i ops' arc hg
      rw [hg]; cases h; rfl

theorem SyncCall.ops_ok {X : Parser P} {maxDocs : Nat} {db : PyStr} {m : Mongo} {es es0 : ES P} {c : SyncCall} {ops : List (BulkOp P)}
    (hn : ((m.data db).map MongoRecord.id).Nodup) (h : c.ops X maxDocs db m es = .ok (es0, ops)) :
    (∀ op ∈ ops, GenOp op) ∧ Consistent ops ∧ (LatestOk es → LatestOk es0) := by
  cases c with
  | sync resync => exact syncOps_latest hn h
  | resyncArcs =>
    simp only [SyncCall.ops] at h
    split at h
    · cases h
    · rename_i ops' arc hg
      cases h
      have := generateOps_latest (hn.sublist (List.filter_sublist.map _)) hg
      have hc := consistent_of_nodup this.2
      exact ⟨fun op hop => (this.1 op (List.mem_filter.1 hop).1).1,
        fun a ha b hb => hc a (List.mem_filter.1 ha).1 b (List.mem_filter.1 hb).1, LatestOk.deleteArcs⟩

/-- The ops of a call depend on the documents only, not on their order. -/
theorem SameDocs.ops {X : Parser P} {maxDocs : Nat} {db : PyStr} {m : Mongo} {es es' es0 : ES P} {c : SyncCall} {ops : List (BulkOp P)}
    (hs : SameDocs es es') (hok : LatestOk es) (hok' : LatestOk es') (h : c.ops X maxDocs db m es = .ok (es0, ops)) :
    ∃ es0', c.ops X maxDocs db m es' = .ok (es0', ops) ∧ SameDocs es0 es0' := by
  cases c with
  | sync resync =>
    simp only [SyncCall.ops] at h ⊢
    unfold syncOps at h ⊢
    split at h
    · rename_i hd; rw [if_pos hd]; cases h; exact ⟨_, rfl, hs⟩
    · rename_i hd
      rw [if_neg hd]
      have hsc : syncScope db resync m es' = syncScope db resync m es := by
        unfold syncScope; rw [hs.version hok.indices hok'.indices]
      rw [hsc]
      split at h
      · cases h
      · cases h; exact ⟨_, rfl, hs⟩
      · rename_i sel last _
        have key : ∀ a a' : ES P, SameDocs a a' → LatestOk a → LatestOk a' → (match generateOps X maxDocs (committedOptionsOf db m) last a.arcStatus
            ((m.data db).filter sel) with | .error e => .error e | .ok (ops, _) => .ok (a, ops)) = Except.ok (es0, ops) →
            ∃ es0', (match generateOps X maxDocs (committedOptionsOf db m) last a'.arcStatus
            ((m.data db).filter sel) with | .error e => .error e | .ok (ops, _) => .ok (a', ops)) = Except.ok (es0', ops) ∧ SameDocs es0 es0' := by
          intro a a' ha hoka hoka' hg
          rw [← ha.arcStatus hoka.indices hoka'.indices]
          split at hg
          · cases hg
          · cases hg; exact ⟨a', rfl, ha⟩
        cases resync with
        | false => exact key es es' hs hok hok' h
        | true => exact key _ _ hs.deleteArcs hok.deleteArcs hok'.deleteArcs h
  | resyncArcs =>
    simp only [SyncCall.ops] at h ⊢
    rw [← hs.deleteArcs.arcStatus hok.deleteArcs.indices hok'.deleteArcs.indices]
    split at h
    · cases h
    · cases h; exact ⟨_, rfl, hs.deleteArcs⟩

/-! ## Reading -/

theorem buckets_perm {α : Type} [LinearOrder α] {docs docs' : List (List α)} (h : docs.Perm docs') : buckets docs = buckets docs' := by
  refine List.Perm.eq_of_pairwise ?_ (buckets_sorted docs) (buckets_sorted docs') ?_
  · intro a b _ _ h1 h2
    exact absurd h1 (lt_asymm h2)
  · have nd : ∀ d : List (List α), (buckets d).Nodup := fun d => (buckets_sorted d).imp (fun h e => by rw [e] at h; exact lt_irrefl _ h)
    refine (List.perm_ext_iff_of_nodup (nd _) (nd _)).2 ?_
    rintro ⟨a, n⟩
    rw [mem_buckets, mem_buckets, h.countP_eq]
    simp only [h.mem_iff]

theorem iterTerms_perm {α : Type} [LinearOrder α] {docs docs' : List (List α)} (h : docs.Perm docs') :
    iterTerms docs defaultChunk = iterTerms docs' defaultChunk := by
  rw [iterTerms_eq _ (by decide : 1 ≤ defaultChunk), iterTerms_eq _ (by decide : 1 ≤ defaultChunk), buckets_perm h]

theorem SameDocs.found {es es' : ES P} (h : SameDocs es es') (hn : (akeys es).Nodup) (hn' : (akeys es').Nodup) (at_ : SearchAt) :
    (found es at_).Perm (Splitgill.found es' at_) := by
  have hs : es.search at_ = es'.search at_ := by
    cases at_ with
    | latest => rfl
    | all => rfl
    | version v => simp only [ES.search]; rw [h.version hn hn']
  unfold Splitgill.found
  rw [hs]
  generalize es'.search at_ = s
  obtain ⟨ix, f⟩ := s
  cases ix <;> cases f <;> simp only [Search.run]
  · exact (h.docs _).map _
  · exact ((h.docs _).map _).filter _
  · exact h.all hn hn'
  · exact (h.all hn hn').filter _

theorem SameDocs.reads {es es' : ES P} (h : SameDocs es es') (hn : (akeys es).Nodup) (hn' : (akeys es').Nodup) : ReadsSame es es' := by
  have hc : es.changedCounts = es'.changedCounts := by
    rw [changedCounts_eq, changedCounts_eq]
    have := h.all hn hn'
    unfold versionValues nextValues
    rw [buckets_perm (this.map _), buckets_perm (this.map (fun d => d.next.toList))]
  have hv : es.versions = es'.versions := by unfold ES.versions; rw [hc]
  exact ⟨h.version hn hn', h.arcStatus hn hn', h.found hn hn', hc, hv, fun v => by unfold ES.roundedVersion; rw [hv]⟩

theorem SameDocs.queries {es es' : ES (Option ParsedData)} (h : SameDocs es es') (hn : (akeys es).Nodup) (hn' : (akeys es').Nodup) :
    QueriesSame es es' := by
  have hq : ∀ Q at_ q, (es.searchFor Q at_ q).Perm (es'.searchFor Q at_ q) := fun Q at_ q => (h.found hn hn' at_).filter _
  refine ⟨hq, fun Q at_ q => ?_, fun Q at_ q => ?_⟩
  · unfold ES.fieldsOfData getDataFields
    rw [iterTerms_perm]
    cases q with
    | none => exact (h.found hn hn' at_).map _
    | some q => exact (hq Q at_ q).map _
  · unfold ES.fieldsOfParsed getParsedFields
    rw [iterTerms_perm]
    cases q with
    | none => exact (h.found hn hn' at_).map _
    | some q => exact (hq Q at_ q).map _

/-! ## Runs -/

theorem runInOrder_sync {X : Parser P} {maxDocs : Nat} {db : PyStr} : ∀ (ms : List Mongo) (es : ES P),
    runInOrder X maxDocs db es (ms.map (fun m => (.sync false, m))) = runSyncs X maxDocs db es ms
  | [], es => rfl
  | m :: ms, es => by
    simp only [List.map_cons, runInOrder, runSyncs, SyncCall.run]
    cases sync X maxDocs db false m es with
    | error e => rfl
    | ok es => exact runInOrder_sync ms es

/-- Runs with schedules leave the documents of runs in order. -/
theorem Scheduled.same {X : Parser P} {maxDocs : Nat} {db : PyStr} {es es' : ES P} {cs : List (SyncCall × Mongo)}
    (h : Scheduled X maxDocs db es cs es') (hids : ∀ cm ∈ cs, ((cm.2.data db).map MongoRecord.id).Nodup) (hok : LatestOk es) :
    ∀ e, SameDocs es e → LatestOk e → ∃ e', runInOrder X maxDocs db e cs = .ok e' ∧ SameDocs es' e' ∧ LatestOk es' ∧ LatestOk e' := by
  induction h with
  | nil es => exact fun e hs he => ⟨e, rfl, hs, hok, he⟩
  | @cons es es0 es' c m rest ops o schedule s indexed deleted hops hsize hrun hret hno hrest ih =>
    intro e hs he
    have hn := hids _ List.mem_cons_self
    obtain ⟨h1, h2, h3⟩ := SyncCall.ops_ok hn hops
    obtain ⟨e0, k1, k2⟩ := hs.ops hok he hops
    have h4 := (SyncCall.ops_ok hn k1).2.2 he
    have hw := written_perm hsize hrun hret
    have ht : timedOutOps s.log = [] := by
      unfold timedOutOps
      rw [List.flatMap_eq_nil_iff]
      intro x hx
      rw [List.mem_filter] at hx
      exact hno x hx.1 hx.2
    rw [ht, List.append_nil] at hw
    have hsame := (applyOps_perm (h3 hok) h1 h2 hw).trans (k2.applyOps (h3 hok) h4 h1 h2)
    obtain ⟨e', g1, g2⟩ := ih (fun cm hcm => hids cm (List.mem_cons_of_mem _ hcm))
      ((h3 hok).applyOps (fun op hop => h1 op (hw.mem_iff.1 hop))) (e0.applyOps ops) hsame (h4.applyOps h1)
    refine ⟨e', ?_, g2⟩
    simp only [runInOrder, SyncCall.ops_run k1]
    exact g1

end
end Splitgill
