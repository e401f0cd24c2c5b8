import Verif.Spec.RaisesWrite
import Verif.Proof.Raises2
import Verif.Proof.Visible
import Verif.Proof.Schedule
/-!
# Syncs that raise while they write: proofs
-/

namespace Splitgill

variable {E : ParseEnv} {F : Failures}

/-! ## The stream -/

theorem tryStream_split {maxDocs : Nat} {opts : List (Int × ParsingOptions)} {after : Option Int} :
    ∀ {rs : List MongoRecord} {arc : Nat × Nat} {ops} {e}, tryStream E F maxDocs opts after arc rs = (ops, e) →
      ∃ before rest arc', rs = before ++ rest ∧ tryGenerateOps E F maxDocs opts after arc before = .ok (ops, arc') ∧
        ((e = none ∧ rest = []) ∨ (e ≠ none ∧ ∃ r more, rest = r :: more ∧ ∀ rvs, tryBuild E F r opts = .ok rvs → rvs = []))
  | [], arc, ops, e, h => by
    cases h
    exact ⟨[], [], arc, rfl, rfl, .inl ⟨rfl, rfl⟩⟩
  | r :: rs, arc, ops, e, h => by
    rw [tryStream] at h
    cases hb : tryBuild E F r opts with
    | error x =>
      rw [hb] at h
      cases h
      exact ⟨[], r :: rs, arc, rfl, rfl, .inr ⟨by simp, r, rs, rfl, fun rvs hr => by cases hb.symm.trans hr⟩⟩
    | ok rvs =>
      rw [hb] at h
      cases rvs with
      | nil =>
        cases h
        exact ⟨[], r :: rs, arc, rfl, rfl, .inr ⟨by simp, r, rs, rfl, fun rvs hr => by cases hb.symm.trans hr; rfl⟩⟩
      | cons rv rvs =>
        dsimp only at h
        cases hr : rvOps maxDocs after r.id arc (rv :: rvs) with
        | mk o1 arc1 =>
          rw [hr] at h
          dsimp only at h
          cases ht : tryStream E F maxDocs opts after arc1 rs with
          | mk o2 e2 =>
            rw [ht] at h
            cases h
            obtain ⟨before, rest, arc', h1, h2, h3⟩ := tryStream_split ht
            refine ⟨r :: before, rest, arc', by rw [h1]; rfl, ?_, h3⟩
            rw [tryGenerateOps, hb]
            dsimp only
            rw [hr]
            dsimp only
            rw [h2]

/-- Without an exception the stream is that of the sync. -/
theorem tryStream_error {maxDocs : Nat} {opts : List (Int × ParsingOptions)} {after : Option Int} {rs : List MongoRecord} {arc : Nat × Nat} :
    (tryStream E F maxDocs opts after arc rs).2 ≠ none ↔ ¬ ∃ x, tryGenerateOps E F maxDocs opts after arc rs = .ok x := by
  cases h : tryStream E F maxDocs opts after arc rs with
  | mk ops e =>
    obtain ⟨before, rest, arc', h1, h2, h3 | ⟨h3, r, more, h4, h5⟩⟩ := tryStream_split h
    · obtain ⟨h3, h4⟩ := h3
      rw [h4, List.append_nil] at h1
      subst h1
      rw [h3]
      exact ⟨fun k => absurd rfl k, fun k => absurd ⟨_, h2⟩ k⟩
    · refine ⟨fun _ hx => ?_, fun _ => h3⟩
      obtain ⟨rvs, hb, hne⟩ := (tryGenerateOps_ok.1 hx) r (by rw [h1, h4]; simp)
      exact hne (h5 rvs hb)

theorem generateOps_append {P : Type} {X : Parser P} {maxDocs : Nat} {opts : List (Int × ParsingOptions)} {after : Option Int} :
    ∀ {a b : List MongoRecord} {arc : Nat × Nat} {ops arc'} {x}, generateOps X maxDocs opts after arc a = .ok (ops, arc') →
      generateOps X maxDocs opts after arc (a ++ b) = .ok x → ∃ more, x.1 = ops ++ more
  | [], b, arc, ops, arc', x, h, _ => by
    cases h
    exact ⟨x.1, rfl⟩
  | r :: a, b, arc, ops, arc', x, h, h' => by
    rw [generateOps] at h
    rw [List.cons_append, generateOps] at h'
    cases hb : build X r opts with
    | error e => rw [hb] at h; cases h
    | ok rvs =>
      rw [hb] at h h'
      cases rvs with
      | nil => cases h
      | cons rv rvs =>
        dsimp only at h h'
        cases hr : rvOps maxDocs after r.id arc (rv :: rvs) with
        | mk o1 arc1 =>
          rw [hr] at h h'
          dsimp only at h h'
          cases ht : generateOps X maxDocs opts after arc1 a with
          | error e => rw [ht] at h; cases h
          | ok y =>
            rw [ht] at h
            cases ht' : generateOps X maxDocs opts after arc1 (a ++ b) with
            | error e => rw [ht'] at h'; cases h'
            | ok z =>
              rw [ht'] at h'
              cases h
              cases h'
              obtain ⟨more, hm⟩ := generateOps_append ht ht'
              exact ⟨more, by rw [hm, List.append_assoc]⟩

/-! ## The run -/

theorem raisingStep_vis {P : Type} {cap : Nat} {s s' : VisState P} {a : VisAction} (h : raisingStep cap s a = some s') : visStep cap s a = some s' := by
  unfold raisingStep at h
  split at h
  · cases h
  · exact h

theorem raisingRun_vis {P : Type} {cap : Nat} : ∀ {as : List VisAction} {s s' : VisState P}, raisingRun cap s as = some s' → visRun cap s as = some s'
  | [], s, s', h => h
  | a :: as, s, s', h => by
    rw [raisingRun] at h
    split at h
    · next s1 h1 =>
      rw [visRun, raisingStep_vis h1]
      exact raisingRun_vis h
    · cases h

/-- Such a run is a run of `write_ops` with the operations in complete chunks. -/
theorem writeRaising_vis {P : Type} {c : Indices P} {ops : List (BulkOp P)} {o : BulkOptions} {as : List VisAction} {s : VisState P}
    (h : writeRaising c ops o as = some s) : writeVisibly c (completeChunks ops o.chunkSize) o as = some s := raisingRun_vis h

/-- Still reading the stream, or raised; in any case no refresh has been asked for. -/
structure Unrefreshed {P : Type} (s : VisState P) : Prop where
  main : (∃ rest, s.bulk.main = .feeding rest) ∨ s.bulk.main = .raised
  refreshed : s.bulk.refreshed = false
  restored : s.restored = false

theorem Unrefreshed.step {P : Type} {cap : Nat} {s s' : VisState P} {a : VisAction} (hs : Unrefreshed s) (h : raisingStep cap s a = some s') :
    Unrefreshed s' := by
  have hv := raisingStep_vis h
  obtain ⟨hm, hr, hrest⟩ := hs
  cases a with
  | others => rw [visStep] at hv; cases hv; exact ⟨hm, hr, hrest⟩
  | auto ix =>
    rw [visStep] at hv
    split at hv
    · cases hv
    · cases hv; exact ⟨hm, hr, hrest⟩
  | restore =>
    rw [visStep] at hv
    rcases hm with ⟨rest, hm⟩ | hm <;> rw [hm] at hv <;> cases hv
  | shows ix =>
    rw [visStep, hr] at hv
    simp at hv
  | refresh ok =>
    rw [visStep] at hv
    have : bulkStep isDeleteOp cap s.bulk (.refreshed ok) = none := by
      rw [bulkStep]
      rcases hm with ⟨rest, hm⟩ | hm <;> rw [hm]
    rw [this] at hv
    cases hv
  | setUp ix =>
    rw [visStep] at hv
    rcases hm with ⟨rest, hm⟩ | hm
    · rw [hm] at hv
      cases rest with
      | nil => cases hv
      | cons x rest =>
        dsimp only at hv
        split at hv
        · cases hv; exact ⟨.inl ⟨_, hm⟩, hr, hrest⟩
        · cases hv
    · rw [hm] at hv; cases hv
  | task b =>
    rw [visStep] at hv
    split at hv
    · cases hb : bulkStep isDeleteOp cap s.bulk b with
      | none => rw [hb] at hv; cases hv
      | some b' =>
        rw [hb] at hv
        cases hv
        cases b with
        | main =>
          rw [bulkStep] at hb
          unfold mainStep at hb
          rcases hm with ⟨rest, hm⟩ | hm
          · cases rest with
            | nil => rw [raisingStep.eq_def, hm] at h; cases h
            | cons x rest =>
              rw [hm] at hb
              dsimp only at hb
              split at hb
              · cases hb
              · split at hb <;> cases hb
                · exact ⟨.inr rfl, hr, hrest⟩
                · exact ⟨.inl ⟨_, rfl⟩, hr, hrest⟩
          · rw [hm] at hb; cases hb
        | mainRaises =>
          rw [bulkStep] at hb
          rcases hm with ⟨rest, hm⟩ | hm
          · rw [hm] at hb; cases hb; exact ⟨.inr rfl, hr, hrest⟩
          · rw [hm] at hb; cases hb
        | get w =>
          rw [bulkStep] at hb
          split at hb
          · cases hb; exact ⟨hm, hr, hrest⟩
          · cases hb; exact ⟨hm, hr, hrest⟩
          · cases hb
        | response w resp =>
          rw [bulkStep] at hb
          split at hb
          · split at hb
            · cases hb; exact ⟨hm, hr, hrest⟩
            · cases hb
          · cases hb
        | refreshed ok =>
          rw [bulkStep] at hb
          rcases hm with ⟨rest, hm⟩ | hm <;> rw [hm] at hb <;> cases hb
    · cases hv

theorem Unrefreshed.run {P : Type} {cap : Nat} : ∀ {as : List VisAction} {s s' : VisState P}, Unrefreshed s → raisingRun cap s as = some s' →
    Unrefreshed s'
  | [], s, s', hs, h => by cases h; exact hs
  | a :: as, s, s', hs, h => by
    rw [raisingRun] at h
    split at h
    · next s1 h1 => exact (hs.step h1).run h
    · cases h

theorem writeRaising_unrefreshed {P : Type} {c : Indices P} {ops : List (BulkOp P)} {o : BulkOptions} {as : List VisAction} {s : VisState P}
    (h : writeRaising c ops o as = some s) : Unrefreshed s :=
  Unrefreshed.run (s := { bulk := bulkStart _ _, cluster := c, setUp := [], restored := false }) ⟨.inl ⟨_, rfl⟩, rfl, rfl⟩ h

/-- Nothing that it writes is seen. -/
theorem writeRaising_hidden {P : Type} {c : Indices P} (hc : c.Held) {ops : List (BulkOp P)} {o : BulkOptions} {as : List VisAction} {s : VisState P}
    (hn : NoOthers as) (h : writeRaising c ops o as = some s) :
    (∀ ix, aget ix s.cluster.visible = aget ix c.visible) ∧ s.cluster.Held := by
  have hv := writeRaising_vis h
  have hi := writeVisibly_inv hc hn hv
  exact ⟨hi.hidden hc (writeRaising_unrefreshed h).refreshed, hi.held hc (writeVisibly_keys hc hv)⟩

theorem completeChunks_sub {α : Type} {ops : List α} {size : Nat} {op : α} (h : op ∈ completeChunks ops size) : op ∈ ops := List.mem_of_mem_take h

/-- What it writes are operations of the stream. -/
theorem writeRaising_stored {P : Type} {c : Indices P} (hc : c.Held) {ops : List (BulkOp P)} {o : BulkOptions} (hsize : 1 ≤ o.chunkSize)
    {as : List VisAction} {s : VisState P} (hn : NoOthers as) (h : writeRaising c ops o as = some s) :
    s.cluster.stored = c.stored.applyOps s.bulk.written ∧ ∀ op ∈ s.bulk.written, op ∈ ops := by
  have hv := writeRaising_vis h
  exact ⟨(writeVisibly_inv hc hn hv).stored, fun op hop => completeChunks_sub (written_sub hsize (writeVisibly_bulk hv) hop)⟩

/-! ## What searches answer from -/

theorem docs_view {P : Type} {c : Indices P} (hc : c.Held) (ix : Ix) : c.view.docs ix = c.visible.docs ix := by
  rw [Indices.view, ES.docs, ES.docs]
  have : aget ix ((akeys c.stored).map (fun ix => (ix, c.visible.docs ix))) = if ix ∈ akeys c.stored then some (c.visible.docs ix) else none := by
    generalize akeys c.stored = l
    induction l with
    | nil => rfl
    | cons i l ih =>
      rw [List.map_cons, aget, ih]
      by_cases h : i = ix
      · subst h; simp
      · have h' : ¬ ix = i := fun e => h e.symm
        simp [h, h']
  rw [this]
  split
  · rfl
  · next h =>
    have := hc.exist ix (by
      cases hx : aget ix c.stored with
      | none => rfl
      | some d => exact absurd (aget_isSome_iff.1 (by rw [hx]; rfl)) h)
    rw [this]

theorem mem_all_seen {P : Type} {es : ES P} (hn : (akeys es).Nodup) (d : Doc P) : d ∈ es.all ↔ ∃ ix id, (id, d) ∈ es.docs ix := by
  unfold ES.all
  simp only [List.mem_flatMap, List.mem_map]
  constructor
  · rintro ⟨⟨ix, docs⟩, h1, ⟨id, d'⟩, h2, rfl⟩
    exact ⟨ix, id, by rw [ES.docs, aget_of_mem hn h1]; exact h2⟩
  · rintro ⟨ix, id, h⟩
    rw [ES.docs] at h
    cases hx : aget ix es with
    | none => rw [hx] at h; cases h
    | some docs => rw [hx] at h; exact ⟨(ix, docs), aget_mem hx, (id, d), h, rfl⟩

theorem view_keys {P : Type} (c : Indices P) : akeys c.view = akeys c.stored := by
  rw [Indices.view]
  generalize akeys c.stored = l
  induction l with
  | nil => rfl
  | cons i l ih => rw [List.map_cons, akeys_cons, ih]

theorem max_congr {l l' : List Int} (h : ∀ x, x ∈ l ↔ x ∈ l') : l.max? = l'.max? := by
  cases hl : l.max? with
  | none =>
    rw [List.max?_eq_none_iff] at hl
    subst hl
    have : l' = [] := List.eq_nil_iff_forall_not_mem.2 (fun x hx => nomatch (h x).2 hx)
    rw [this]; rfl
  | some a =>
    rw [List.max?_eq_some_iff] at hl
    refine Eq.symm ((List.max?_eq_some_iff).2 ⟨(h a).1 hl.1, fun b hb => hl.2 b ((h b).2 hb)⟩)

/-- The version is that of what is seen. -/
theorem version_of_docs {P : Type} {es es' : ES P} (hn : (akeys es).Nodup) (hn' : (akeys es').Nodup) (h : ∀ ix, es.docs ix = es'.docs ix) :
    es.version = es'.version := by
  have hm : ∀ d, d ∈ es.all ↔ d ∈ es'.all := fun d => by
    rw [mem_all_seen hn, mem_all_seen hn']
    simp only [h]
  refine max_congr fun x => ?_
  simp only [List.mem_append, List.mem_map, List.mem_filterMap, hm]

theorem view_version {P : Type} {c c' : Indices P} (hc : c.Held) (hc' : c'.Held) (hk : (akeys c.stored).Nodup) (hk' : (akeys c'.stored).Nodup)
    (h : ∀ ix, aget ix c'.visible = aget ix c.visible) : c'.view.version = c.view.version := by
  refine version_of_docs (by rw [view_keys]; exact hk') (by rw [view_keys]; exact hk) fun ix => ?_
  rw [docs_view hc', docs_view hc, ES.docs, ES.docs, h]

/-! ## The start -/

theorem tryStart_start {maxDocs : Nat} {db : PyStr} {resync : Bool} {m : Mongo} {c c1 : Indices (Option ParsedData)} {ops e}
    (h : tryStart E F maxDocs db resync m c = .ok (some (c1, ops, e))) : c1 = if resync then c.deleteArcs else c := by
  unfold tryStart at h
  split at h
  · cases h
  · split at h
    · cases h
    · cases h
    · dsimp only at h
      injection h with h
      injection h with h
      exact (congrArg Prod.fst h).symm

/-- The operations are those of the records before one that cannot be built. -/
theorem tryStart_ops {maxDocs : Nat} {db : PyStr} {resync : Bool} {m : Mongo} {c c1 : Indices (Option ParsedData)} {ops e}
    (hids : ((m.data db).map MongoRecord.id).Nodup)
    (h : tryStart E F maxDocs db resync m c = .ok (some (c1, ops, e))) : (∀ op ∈ ops, GenOp op) ∧ Consistent ops := by
  unfold tryStart at h
  split at h
  · cases h
  · split at h
    · cases h
    · cases h
    · next sel last hs =>
      dsimp only at h
      cases ht : tryStream E F maxDocs (committedOptionsOf db m) last (if resync then c.deleteArcs else c).view.arcStatus ((m.data db).filter sel) with
      | mk ops' e' =>
        rw [ht] at h
        cases h
        obtain ⟨before, rest, arc', h1, h2, _⟩ := tryStream_split ht
        have hn := hids.sublist (List.filter_sublist (p := sel) |>.map MongoRecord.id)
        rw [h1, List.map_append] at hn
        have := generateOps_latest (List.nodup_append.1 hn).1 (tryGenerateOps_same h2)
        exact ⟨fun op hop => (this.1 op hop).1, consistent_of_nodup this.2⟩

/-- Nothing is seen of syncs that raise. -/
theorem RaisedSyncs.inv {maxDocs : Nat} {db : PyStr} {c c' : Indices (Option ParsedData)} (h : RaisedSyncs E F maxDocs db c c') (hc : c.Held)
    (hok : LatestOk c.stored) : (∀ ix, aget ix c'.visible = aget ix c.visible) ∧ c'.Held ∧ LatestOk c'.stored := by
  induction h with
  | none => exact ⟨fun _ => rfl, hc, hok⟩
  | more m o schedule s before hids hstart hsize hn hrun ih =>
    obtain ⟨h1, h2, h3⟩ := ih
    have hc1 := tryStart_start hstart
    simp only [Bool.false_eq_true, if_false] at hc1
    subst hc1
    obtain ⟨k1, k2⟩ := writeRaising_hidden h2 hn hrun
    obtain ⟨k3, k4⟩ := writeRaising_stored h2 hsize hn hrun
    refine ⟨fun ix => (k1 ix).trans (h1 ix), k2, ?_⟩
    rw [k3]
    exact h3.applyOps (fun op hop => (tryStart_ops hids hstart).1 op (k4 op hop))

/-- The stream raises iff the sync of the other model does. -/
theorem tryStart_raises {maxDocs : Nat} {db : PyStr} {resync : Bool} {m : Mongo} {c : Indices (Option ParsedData)} :
    (∃ c1 ops e, tryStart E F maxDocs db resync m c = .ok (some (c1, ops, some e))) ∨ (∃ e, tryStart E F maxDocs db resync m c = .error e) ↔
      ∃ e, trySync E F maxDocs db resync m c.view = .error e := by
  unfold tryStart trySync
  cases hd : hasData db m with
  | false => simp
  | true =>
    simp only [Bool.not_true, Bool.false_eq_true, if_false]
    cases hs : syncScope db resync m c.view with
    | error e => simp
    | ok x =>
      cases x with
      | none => simp
      | some x =>
        obtain ⟨sel, last⟩ := x
        dsimp only
        generalize ha : (if resync = true then c.deleteArcs else c).view.arcStatus = arc
        generalize hb : ES.arcStatus (if resync = true then c.view.deleteArcs else c.view) = arc2
        have k1 := tryStream_error (E := E) (F := F) (maxDocs := maxDocs) (opts := committedOptionsOf db m) (after := last)
          (rs := (m.data db).filter sel) (arc := arc)
        have k2 : (∃ x, tryGenerateOps E F maxDocs (committedOptionsOf db m) last arc ((m.data db).filter sel) = .ok x) ↔
            ∃ x, tryGenerateOps E F maxDocs (committedOptionsOf db m) last arc2 ((m.data db).filter sel) = .ok x := by
          rw [tryGenerateOps_ok, tryGenerateOps_ok]
        rw [k2] at k1
        cases ht : tryStream E F maxDocs (committedOptionsOf db m) last arc ((m.data db).filter sel) with
        | mk ops e =>
          rw [ht] at k1
          cases hg : tryGenerateOps E F maxDocs (committedOptionsOf db m) last arc2 ((m.data db).filter sel) with
          | error x =>
            have : e ≠ none := k1.2 (fun ⟨y, hy⟩ => by cases hg.symm.trans hy)
            obtain ⟨e', he⟩ := Option.ne_none_iff_exists'.1 this
            exact ⟨fun _ => ⟨x, rfl⟩, fun _ => .inl ⟨_, ops, e', by rw [he]⟩⟩
          | ok y =>
            have : e = none := Classical.byContradiction (fun hne => k1.1 hne ⟨y, hg⟩)
            constructor
            · rintro (⟨c1, ops', e', h⟩ | ⟨e', h⟩)
              · rw [this] at h; cases h
              · cases h
            · rintro ⟨e', h⟩
              cases h

end Splitgill
