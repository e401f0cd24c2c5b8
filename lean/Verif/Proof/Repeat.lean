import Verif.Spec.Repeat
import Verif.Proof.Bulk3
import Verif.Proof.BulkOps
import Verif.Proof.Schedule
/-!
# Syncs of the same data that do not see each other
-/

namespace Splitgill
variable {P : Type}

/-! ## The operations do not depend on the archives, but for their numbers -/

theorem rvOps_anyArc {maxDocs : Nat} (after : Option Int) (id : PyStr) : ∀ (rvs : List (RecordVersion P)) (a b : Nat × Nat),
    (rvOps maxDocs after id a rvs).1.map BulkOp.anyArc = (rvOps maxDocs after id b rvs).1.map BulkOp.anyArc
  | [], a, b => rfl
  | rv :: rest, a, b => by
    have ih := fun a b => rvOps_anyArc (maxDocs := maxDocs) after id rest a b
    unfold rvOps
    dsimp only
    split
    · simp only [List.map_cons, ih a b]
    · split
      · simp only [List.nil_append, List.map_cons, BulkOp.anyArc, ih (nextArc maxDocs a) (nextArc maxDocs b)]
      · split
        · split
          · split <;>
              simp only [List.nil_append, List.singleton_append, List.map_cons, BulkOp.anyArc, ih (nextArc maxDocs a) (nextArc maxDocs b)]
          · exact ih a b
        · exact ih a b

theorem generateOps_anyArc {X : Parser P} {maxDocs : Nat} {opts : List (Int × ParsingOptions)} {after : Option Int} :
    ∀ {recs : List MongoRecord} {a b : Nat × Nat} {ops : List (BulkOp P)} {arc : Nat × Nat},
      generateOps X maxDocs opts after a recs = .ok (ops, arc) →
      ∃ ops' arc', generateOps X maxDocs opts after b recs = .ok (ops', arc') ∧ ops'.map BulkOp.anyArc = ops.map BulkOp.anyArc
  | [], a, b, ops, arc, h => by rw [generateOps] at h; cases h; exact ⟨[], b, rfl, rfl⟩
  | r :: recs, a, b, ops, arc, h => by
    rw [generateOps] at h ⊢
    split at h
    · cases h
    · cases h
    · next rvs hne hb =>
      dsimp only at h ⊢
      split at h
      · cases h
      · next ops2 arc2 h2 =>
        cases h
        obtain ⟨ops', arc', h3, h4⟩ := generateOps_anyArc (b := (rvOps maxDocs after r.id b rvs).2) h2
        rw [h3]
        refine ⟨_, _, rfl, ?_⟩
        rw [List.map_append, List.map_append, h4, rvOps_anyArc]

/-! ## What is in the indices -/

theorem mem_all_docs {es : ES P} (hn : (akeys es).Nodup) {d : Doc P} : d ∈ es.all ↔ ∃ ix, ∃ x ∈ es.docs ix, x.2 = d := by
  rw [all_eq_keys hn]
  simp only [List.mem_flatMap, List.mem_map]
  constructor
  · rintro ⟨ix, _, x, h1, h2⟩; exact ⟨ix, x, h1, h2⟩
  · rintro ⟨ix, x, h1, h2⟩
    refine ⟨ix, Classical.byContradiction fun h => ?_, x, h1, h2⟩
    rw [ES.docs, aget_eq_none_iff.2 h] at h1
    cases h1

theorem max?_mem {l l' : List Int} (h : ∀ x, x ∈ l ↔ x ∈ l') : l.max? = l'.max? := by
  cases e : l'.max? with
  | none =>
    rw [List.max?_eq_none_iff] at e ⊢
    subst e
    exact List.eq_nil_iff_forall_not_mem.2 fun x hx => nomatch (h x).1 hx
  | some a =>
    rw [List.max?_eq_some_iff] at e ⊢
    exact ⟨(h a).2 e.1, fun x hx => e.2 x ((h x).1 hx)⟩

theorem version_mem {es es' : ES P} (h : ∀ d, d ∈ es.all ↔ d ∈ es'.all) : es.version = es'.version := by
  refine max?_mem fun x => ?_
  simp only [List.mem_append, List.mem_map, List.mem_filterMap, h]

theorem version_docs {es es' : ES P} (hn : (akeys es).Nodup) (hn' : (akeys es').Nodup) (h : ∀ ix, es.docs ix = es'.docs ix) :
    es.version = es'.version :=
  version_mem fun d => by rw [mem_all_docs hn, mem_all_docs hn']; simp only [h]

/-- A sync that sees the same documents makes the same operations, but for the numbers of the archives. -/
theorem syncOps_sees {X : Parser P} {maxDocs : Nat} {db : PyStr} {m : Mongo} {es view : ES P} (hn : (akeys es).Nodup) (hv : (akeys view).Nodup)
    (h : ∀ ix, view.docs ix = es.docs ix) {es0 : ES P} {ops : List (BulkOp P)} (hops : syncOps X maxDocs db false m view = .ok (es0, ops)) :
    ∃ ops', syncOps X maxDocs db false m es = .ok (es, ops') ∧ ops'.map BulkOp.anyArc = ops.map BulkOp.anyArc := by
  have hs : syncScope db false m view = syncScope db false m es := by
    unfold syncScope
    rw [version_docs hv hn h]
  unfold syncOps at hops ⊢
  rw [hs] at hops
  split at hops
  · next h0 => cases hops; rw [if_pos h0]; exact ⟨[], rfl, rfl⟩
  · next h0 =>
    rw [if_neg h0]
    split at hops
    · cases hops
    · cases hops; exact ⟨[], rfl, rfl⟩
    · simp only [Bool.false_eq_true, if_false] at hops ⊢
      split at hops
      · cases hops
      · next g =>
        cases hops
        obtain ⟨ops', arc', h1, h2⟩ := generateOps_anyArc (b := es.arcStatus) g
        rw [h1]
        exact ⟨ops', rfl, h2⟩

/-- The operations are the same, but for the numbers of archives and for how often and in which order they are. -/
def AlikeOps (a b : List (BulkOp P)) : Prop := ∀ op, op ∈ a.map BulkOp.anyArc ↔ op ∈ b.map BulkOp.anyArc

theorem anyArc_genOp {a b : BulkOp P} (h : a.anyArc = b.anyArc) (hb : GenOp b) : GenOp a := by
  cases a with
  | delete i x =>
    cases b with
    | delete j y => cases h; exact hb
    | index j y d => cases j <;> cases h
  | index i x d =>
    cases b with
    | delete j y => cases i <;> cases h
    | index j y d => cases i <;> cases j <;> cases h <;> exact hb

theorem anyArc_latestId (a : BulkOp P) : a.anyArc.latestId = a.latestId := by
  cases a with
  | delete i x => rfl
  | index i x d => cases i <;> rfl

theorem anyArc_latest {a : BulkOp P} (h : a.latestId ≠ none) : a.anyArc = a := by
  cases a with
  | delete i x => rfl
  | index i x d =>
    cases i with
    | latest => rfl
    | arc n => exact absurd rfl h

/-- An operation about a latest document is in both. -/
theorem AlikeOps.latest {a b : List (BulkOp P)} (h : AlikeOps a b) {op : BulkOp P} (ho : op ∈ a) (hl : op.latestId ≠ none) : op ∈ b := by
  have := (h op.anyArc).1 (List.mem_map_of_mem ho)
  obtain ⟨op', h1, h2⟩ := List.mem_map.1 this
  have hl' : op'.latestId ≠ none := by rw [← anyArc_latestId, h2, anyArc_latestId]; exact hl
  rw [anyArc_latest hl, anyArc_latest hl'] at h2
  exact h2 ▸ h1

theorem AlikeOps.symm {a b : List (BulkOp P)} (h : AlikeOps a b) : AlikeOps b a := fun op => (h op).symm

theorem AlikeOps.genOp {a b : List (BulkOp P)} (h : AlikeOps a b) (hb : ∀ op ∈ b, GenOp op) : ∀ op ∈ a, GenOp op := fun op ho => by
  obtain ⟨op', h1, h2⟩ := List.mem_map.1 ((h op.anyArc).1 (List.mem_map_of_mem ho))
  exact anyArc_genOp h2.symm (hb op' h1)

theorem AlikeOps.consistent {a b : List (BulkOp P)} (h : AlikeOps a b) (hb : Consistent b) : Consistent a := fun x hx y hy he hne =>
  hb x (h.latest hx hne) y (h.latest hy (he ▸ hne)) he hne

/-- So the latest index is the same. -/
theorem AlikeOps.docs_latest {es : ES P} (hok : LatestOk es) {a b : List (BulkOp P)} (h : AlikeOps a b) (hb : ∀ op ∈ b, GenOp op)
    (hc : Consistent b) : ((es.applyOps a).docs .latest).Perm ((es.applyOps b).docs .latest) := by
  have ha := h.genOp hb
  refine latest_perm (hok.applyOps ha) (hok.applyOps hb) (fun id => ?_)
  have h1 := applyOps_latestOf hok hb hc id
  have h2 := applyOps_latestOf hok ha (h.consistent hc) id
  by_cases hex : ∃ op ∈ b, op.latestId = some id
  · obtain ⟨op, hop, hid⟩ := hex
    rw [h1.1 op hop hid, h2.1 op (h.symm.latest hop (by rw [hid]; nofun)) hid]
  · rw [h1.2 (fun op hop e => hex ⟨op, hop, e⟩), h2.2 (fun op hop e => hex ⟨op, h.latest hop (by rw [e]; nofun), e⟩)]

theorem arcDoc_some {k : Nat} {op : BulkOp P} {x : Option PyStr × Doc P} : op.arcDoc k = some x ↔ op = .index (.arc k) x.1 x.2 := by
  obtain ⟨i, d⟩ := x
  cases op with
  | delete i x => simp [BulkOp.arcDoc]
  | index i x d' =>
    cases i with
    | latest => simp [BulkOp.arcDoc]
    | arc n => simp [BulkOp.arcDoc]

theorem AlikeOps.arc {a b : List (BulkOp P)} (h : AlikeOps a b) {k : Nat} {x : Option PyStr} {d : Doc P} (ho : .index (.arc k) x d ∈ a) :
    ∃ k', BulkOp.index (.arc k') x d ∈ b := by
  obtain ⟨op, h1, h2⟩ := List.mem_map.1 ((h _).1 (List.mem_map_of_mem ho))
  cases op with
  | delete i x => cases h2
  | index i x d' =>
    cases i with
    | latest => cases h2
    | arc n => cases h2; exact ⟨n, h1⟩

theorem AlikeOps.mem_all {es : ES P} (hok : LatestOk es) {a b : List (BulkOp P)} (h : AlikeOps a b) (hb : ∀ op ∈ b, GenOp op)
    (hc : Consistent b) {d : Doc P} (hd : d ∈ (es.applyOps a).all) : d ∈ (es.applyOps b).all := by
  have ha := h.genOp hb
  rw [mem_all_docs (hok.applyOps ha).indices] at hd
  rw [mem_all_docs (hok.applyOps hb).indices]
  obtain ⟨ix, x, h1, h2⟩ := hd
  cases ix with
  | latest => exact ⟨.latest, x, (h.docs_latest hok hb hc).mem_iff.1 h1, h2⟩
  | arc k =>
    rw [applyOps_arcDocs ha, List.mem_append, List.mem_filterMap] at h1
    rcases h1 with h1 | ⟨op, h1, h3⟩
    · exact ⟨.arc k, x, by rw [applyOps_arcDocs hb]; exact List.mem_append_left _ h1, h2⟩
    · rw [arcDoc_some] at h3
      subst h3
      obtain ⟨k', h5⟩ := h.arc h1
      refine ⟨.arc k', x, ?_, h2⟩
      rw [applyOps_arcDocs hb]
      exact List.mem_append_right _ (List.mem_filterMap.2 ⟨_, h5, arcDoc_some.2 rfl⟩)

/-- And the same is found, but for how often. -/
theorem AlikeOps.found {es : ES P} (hok : LatestOk es) {a b : List (BulkOp P)} (h : AlikeOps a b) (hb : ∀ op ∈ b, GenOp op)
    (hc : Consistent b) : (es.applyOps a).version = (es.applyOps b).version ∧
    ∀ at_ d, d ∈ Splitgill.found (es.applyOps a) at_ ↔ d ∈ Splitgill.found (es.applyOps b) at_ := by
  have hall : ∀ d, d ∈ (es.applyOps a).all ↔ d ∈ (es.applyOps b).all := fun d =>
    ⟨h.mem_all hok hb hc, h.symm.mem_all hok (h.genOp hb) (h.consistent hc)⟩
  have hv := version_mem hall
  refine ⟨hv, fun at_ d => ?_⟩
  have hs : (es.applyOps a).search at_ = (es.applyOps b).search at_ := by
    cases at_ with
    | latest => rfl
    | all => rfl
    | version v => simp only [ES.search]; rw [hv]
  have hl := (h.docs_latest hok hb hc).map Prod.snd
  unfold Splitgill.found
  rw [hs]
  generalize (es.applyOps b).search at_ = s
  obtain ⟨ix, f⟩ := s
  cases ix <;> cases f <;> simp only [Search.run, List.mem_filter, hall, hl.mem_iff]

end Splitgill
