import Verif.Spec.Reads
import Verif.Proof.Wire
import Verif.Proof.Writers10
import Verif.Proof.Stable
import Verif.Proof.Index3
import Verif.Proof.EndToEnd2
/-!
# Lemmas for C125
-/

namespace Splitgill

variable {P : Type} {X : Parser P} {maxDocs : Nat} {db : PyStr} {states : Nat → Mongo}

/-- The committed records can be read. -/
def DataOk (db : PyStr) (m : Mongo) : Prop :=
  ∀ r ∈ m.data db, r.version.isSome → r.iter = .ok ((histOf (m.data db) r.id).map (fun vd => (some vd.1, vd.2))) ∧ ValidHist (histOf (m.data db) r.id)

theorem DbOk.dataOk {m : Mongo} (h : DbOk db m) : DataOk db m := by
  intro r hr hv
  obtain ⟨v, hv⟩ := Option.isSome_iff_exists.1 hv
  obtain ⟨items, h1, h2⟩ := h.reads r hr
  obtain ⟨h2, d, h3⟩ := h2 v hv
  have hf := findRecord_of_mem (c := m.data db) h.nodup hr
  have e : histOf (m.data db) r.id = committedOf items := by simp only [histOf, history, hf, h1]
  refine ⟨by rw [e, h1]; exact congrArg _ h2, h.valid fun e' => ?_⟩
  rw [e] at e'
  rw [e'] at h3
  cases h3

theorem dataOk_congr {m m' : Mongo} (h : DataOk db m) (e : m'.data db = m.data db) : DataOk db m' := by
  intro r hr hv
  rw [e] at hr ⊢
  exact h r hr hv

theorem mem_createDocs {maxDocs : Nat} {after : Option Int} {id : PyStr} : ∀ {rvs : List (RecordVersion P)} {arc : Nat × Nat} {ix docId doc},
    .index ix docId doc ∈ (rvOps maxDocs after id arc rvs).1 → doc ∈ createDocs rvs
  | [], arc, ix, docId, doc, h => by cases h
  | rv :: rest, arc, ix, docId, doc, h => by
    have ih : ∀ arc, .index ix docId doc ∈ (rvOps maxDocs after id arc rest).1 → doc ∈ createDocs (rv :: rest) := fun arc h =>
      List.mem_cons_of_mem _ (mem_createDocs h)
    have here : rv.createDoc rest.head? ∈ createDocs (rv :: rest) := List.mem_cons_self
    have harch : ∀ pre : List (BulkOp P), (∀ op ∈ pre, op = .delete .latest id) →
        .index ix docId doc ∈ pre ++ .index (.arc (nextArc maxDocs arc).1) none (rv.createDoc rest.head?) ::
          (rvOps maxDocs after id (nextArc maxDocs arc) rest).1 → doc ∈ createDocs (rv :: rest) := by
      intro pre hpre h
      rcases List.mem_append.1 h with h | h
      · cases hpre _ h
      · rcases List.mem_cons.1 h with h | h
        · cases h; exact here
        · exact ih _ h
    rw [rvOps] at h
    dsimp only at h
    split at h
    · rcases List.mem_cons.1 h with h | h
      · cases h; exact here
      · exact ih _ h
    · split at h
      · exact harch [] (fun _ hm => (nomatch hm)) h
      · split at h
        · split at h
          · split at h
            · exact harch [.delete .latest id] (fun op hm => List.mem_singleton.1 hm) h
            · exact harch [] (fun _ hm => (nomatch hm)) h
          · exact ih _ h
        · exact ih _ h

theorem generateOps_docs {maxDocs : Nat} {allOptions : List (Int × ParsingOptions)} {after : Option Int} :
    ∀ {records : List MongoRecord} {arc : Nat × Nat} {ops arc' ix docId doc}, generateOps X maxDocs allOptions after arc records = .ok (ops, arc') →
    .index ix docId doc ∈ ops → ∃ r ∈ records, ∃ rvs, build X r allOptions = .ok rvs ∧ doc ∈ createDocs rvs
  | [], arc, ops, arc', ix, docId, doc, h, hm => by cases h; cases hm
  | r :: rest, arc, ops, arc', ix, docId, doc, h, hm => by
    rw [generateOps] at h
    cases hb : build X r allOptions with
    | error e => rw [hb] at h; cases h
    | ok rvs =>
      rw [hb] at h
      cases rvs with
      | nil => cases h
      | cons rv rvs =>
        dsimp only at h
        cases hg : generateOps X maxDocs allOptions after (rvOps maxDocs after r.id arc (rv :: rvs)).2 rest with
        | error e => rw [hg] at h; cases h
        | ok x =>
          rw [hg] at h
          cases h
          rcases List.mem_append.1 hm with hm | hm
          · exact ⟨r, List.mem_cons_self, _, hb, mem_createDocs hm⟩
          · obtain ⟨r', h1, h2⟩ := generateOps_docs hg hm
            exact ⟨r', List.mem_cons_of_mem _ h1, h2⟩

theorem mem_all_iff {es : ES P} {d : Doc P} : d ∈ es.all ↔ ∃ x ∈ es, ∃ y ∈ x.2, y.2 = d := by
  simp only [ES.all, List.mem_flatMap, List.mem_map]

theorem docs_sub_all {es : ES P} {ix : Ix} {y : Option PyStr × Doc P} (h : y ∈ es.docs ix) : y.2 ∈ es.all := by
  unfold ES.docs at h
  cases e : aget ix es with
  | none => rw [e] at h; cases h
  | some l => rw [e] at h; exact mem_all_iff.2 ⟨_, aget_mem e, y, h, rfl⟩

/-- An operation adds no document but its own. -/
theorem mem_apply_all {op : BulkOp P} {es : ES P} {d : Doc P} (h : d ∈ (op.apply es).all) : d ∈ es.all ∨ ∃ ix docId, op = .index ix docId d := by
  obtain ⟨x, hx, y, hy, rfl⟩ := mem_all_iff.1 h
  cases op with
  | delete ix docId =>
    rcases mem_aset hx with rfl | hx
    · exact .inl (docs_sub_all ((aerase_sublist _ _).subset hy))
    · exact .inl (mem_all_iff.2 ⟨x, hx, y, hy, rfl⟩)
  | index ix docId doc =>
    rcases mem_aset hx with rfl | hx
    · cases docId with
      | none =>
        rcases List.mem_append.1 hy with hy | hy
        · exact .inl (docs_sub_all hy)
        · rw [List.mem_singleton.1 hy]; exact .inr ⟨_, _, rfl⟩
      | some i =>
        rcases mem_aset hy with rfl | hy
        · exact .inr ⟨_, _, rfl⟩
        · exact .inl (docs_sub_all hy)
    · exact .inl (mem_all_iff.2 ⟨x, hx, y, hy, rfl⟩)

theorem effectiveOptions_sub {h : List (Int × Dict)} {l : List (Int × ParsingOptions)} {x} (hx : x ∈ effectiveOptions h l) : x ∈ l := (List.mem_filter.1 hx).1

/-- Nothing is shown that was not committed. -/
theorem CanHold.committed (hm : ∀ t, DataOk db (states t)) {es : ES P} (h : CanHold X maxDocs db states es) :
    ∀ d ∈ es.all, (d.gte = d.version ∧ ∀ e, d.lt = some e → d.version < e) ∧ ∃ t t' a o, ShowsCommitted X db states d t t' a o := by
  induction h with
  | empty => intro d hd; cases hd
  | lost _ hl ih => exact fun d hd => ih d (hl d hd)
  | @write es t records after arc arc' ops op _ hr hg ho ih =>
    intro d hd
    rcases mem_apply_all hd with hd | ⟨ix, docId, rfl⟩
    · exact ih d hd
    · obtain ⟨r, hr1, rvs, hb, hd⟩ := generateOps_docs hg ho
      obtain ⟨t', ht, hr2, hr3⟩ := hr r hr1
      obtain ⟨hi, hv⟩ := hm t' r hr2 hr3
      have hne : committedOptionsOf db (states t) ≠ [] := by
        intro e
        rw [e, build_eq_buildFrom hi hv.nodup] at hb
        unfold buildFrom at hb
        split at hb
        · rename_i e; cases e
        · cases hb
      obtain ⟨rvs', h1, h2⟩ := buildFrom_partitions (X := X) (id := r.id) hv ⟨hne, committedOptionsOf_nodup db _⟩
      rw [build_eq_buildFrom hi hv.nodup, h1] at hb
      cases hb
      obtain ⟨e1, e2, e3⟩ := h2.fields d hd
      have hcov : d.covers d.gte := ⟨Int.le_refl _, fun e he => h2.range d hd e he⟩
      obtain ⟨a, ha1, ha2⟩ := (h2.covered d.gte).1 ⟨d, hd, hcov⟩
      obtain ⟨o, ho⟩ := exists_optionsAsOf (effectiveOptions_ne_nil (histOf ((states t').data db) r.id) hne) d.gte
      refine ⟨⟨e2.symm, fun e he => by rw [e2]; exact h2.range d hd e he⟩, t, t', a, o, ht, ?_, ha2, ?_, ?_, ?_⟩
      · rw [e1, e2]; exact ha1
      · rw [e1, e2]; exact ho
      · exact h2.start d hd a o ha1 ho
      · rw [e1, e2]
        rcases h2.ends d hd d.gte (.inl rfl) with h | h
        · exact .inl h
        · obtain ⟨x, hx, e⟩ := List.mem_map.1 h
          exact .inr (List.mem_map.2 ⟨x, effectiveOptions_sub hx, e⟩)

end Splitgill
