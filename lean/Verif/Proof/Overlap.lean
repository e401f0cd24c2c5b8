import Verif.Spec.Overlap
import Verif.Proof.Repeat
import Verif.Proof.Each2
import Verif.Proof.Stale
import Verif.Proof.Reads3
/-!
# Lemmas: two syncs at the same time, of data at different moments
-/

namespace Splitgill

section
variable {P : Type} {X : Parser P} {db : PyStr}

/-- What the last operation about a record says is what is in the latest index. -/
theorem applyOps_last : ∀ {ops : List (BulkOp P)} {es : ES P}, LatestOk es → (∀ op ∈ ops, GenOp op) → ∀ id,
    (∃ before op after, ops = before ++ op :: after ∧ op.latestId = some id ∧ (∀ o ∈ after, o.latestId ≠ some id) ∧
      (es.applyOps ops).latestOf id = op.latestDoc) ∨
    ((∀ op ∈ ops, op.latestId ≠ some id) ∧ (es.applyOps ops).latestOf id = es.latestOf id)
  | [], es, _, _, id => .inr ⟨fun _ h => (nomatch h), rfl⟩
  | op :: ops, es, h, hg, id => by
    have h1 := apply_latestOf h (hg op List.mem_cons_self) id
    rw [applyOps_cons]
    rcases applyOps_last (h.apply (hg op List.mem_cons_self)) (fun o ho => hg o (List.mem_cons_of_mem _ ho)) id with
      ⟨before, o, after, g1, g2, g3, g4⟩ | ⟨g1, g2⟩
    · exact .inl ⟨op :: before, o, after, by rw [g1]; rfl, g2, g3, g4⟩
    · by_cases e : op.latestId = some id
      · exact .inl ⟨[], op, ops, rfl, e, g1, by rw [g2, h1, if_pos e]⟩
      · refine .inr ⟨fun o ho => ?_, by rw [g2, h1, if_neg e]⟩
        rcases List.mem_cons.1 ho with rfl | ho
        · exact e
        · exact g1 o ho

theorem mem_archived_docs {es : ES P} (hn : (akeys es).Nodup) {d : Doc P} : d ∈ es.archived ↔ ∃ k, ∃ x ∈ es.docs (.arc k), x.2 = d := by
  simp only [ES.archived, List.mem_flatMap]
  constructor
  · rintro ⟨⟨ix, l⟩, h1, h2⟩
    cases ix with
    | latest => cases h2
    | arc k =>
      obtain ⟨x, h3, h4⟩ := List.mem_map.1 h2
      refine ⟨k, x, ?_, h4⟩
      rw [ES.docs, aget_of_mem hn h1]
      exact h3
  · rintro ⟨k, x, h1, h2⟩
    unfold ES.docs at h1
    cases hg : aget (.arc k) es with
    | none => rw [hg] at h1; cases h1
    | some l =>
      rw [hg] at h1
      exact ⟨(.arc k, l), aget_mem hg, List.mem_map.2 ⟨x, h1, h2⟩⟩

/-- What operations add to the archives. -/
theorem mem_archived_ops {es : ES P} (h : LatestOk es) {ops : List (BulkOp P)} (hg : ∀ op ∈ ops, GenOp op) {d : Doc P} :
    d ∈ (es.applyOps ops).archived ↔ d ∈ es.archived ∨ ∃ k x, .index (.arc k) x d ∈ ops := by
  rw [mem_archived_docs (h.applyOps hg).indices, mem_archived_docs h.indices]
  constructor
  · rintro ⟨k, x, h1, rfl⟩
    rw [applyOps_arcDocs hg, List.mem_append, List.mem_filterMap] at h1
    rcases h1 with h1 | ⟨op, h1, h2⟩
    · exact .inl ⟨k, x, h1, rfl⟩
    · rw [arcDoc_some] at h2
      exact .inr ⟨k, x.1, h2 ▸ h1⟩
  · rintro (⟨k, x, h1, rfl⟩ | ⟨k, x, h1⟩)
    · exact ⟨k, x, by rw [applyOps_arcDocs hg]; exact List.mem_append_left _ h1, rfl⟩
    · exact ⟨k, (x, d), by
        rw [applyOps_arcDocs hg]
        exact List.mem_append_right _ (List.mem_filterMap.2 ⟨_, h1, arcDoc_some.2 rfl⟩), rfl⟩

/-- What goes to the archives: the documents that end after `after`. -/
theorem mem_toArchive {after : Option Int} : ∀ {D : List (Doc P)}, GoodDocs D → ∀ {d : Doc P},
    (d ∈ toArchive after D ↔ d ∈ D ∧ ∃ e, d.lt = some e ∧ gtAfter after e = true)
  | [], _, d => by simp [toArchive]
  | x :: rest, h, d => by
    have ih := mem_toArchive (after := after) h.tail (d := d)
    have hx := h.range x List.mem_cons_self
    have hgt : ∀ e, x.lt = some e → gtAfter after x.gte = true → gtAfter after e = true := by
      intro e he hg
      have := hx e he
      unfold gtAfter at hg ⊢
      split
      · rfl
      · simp only [decide_eq_true_eq] at hg ⊢; omega
    have hne : x.lt = none → rest = [] := by
      intro hl
      cases rest with
      | nil => rfl
      | cons y r =>
        obtain ⟨e, he, _⟩ := (List.pairwise_cons.1 h.pair).1 y List.mem_cons_self
        rw [hl] at he; cases he
    rw [toArchive]
    cases hl : x.lt with
    | none =>
      obtain rfl := hne hl
      have hno : ¬ (d ∈ [x] ∧ ∃ e, d.lt = some e ∧ gtAfter after e = true) := by
        rintro ⟨h1, e, h2, _⟩
        rw [List.mem_singleton.1 h1, hl] at h2; cases h2
      cases hg : gtAfter after x.gte <;> simp [toArchive, hno] <;> intro h1 <;> subst h1 <;> simp [hl]
    | some e =>
      simp only [Option.isNone_some, Bool.and_false, Bool.false_eq_true, if_false]
      by_cases hg : gtAfter after e = true
      · rw [if_pos (by rw [hg, Bool.or_true]), List.mem_cons, ih, List.mem_cons]
        constructor
        · rintro (rfl | ⟨h1, h2⟩)
          · exact ⟨.inl rfl, e, hl, hg⟩
          · exact ⟨.inr h1, h2⟩
        · rintro ⟨rfl | h1, h2⟩
          · exact .inl rfl
          · exact .inr ⟨h1, h2⟩
      · have hg' : gtAfter after x.gte = false := by
          cases hc : gtAfter after x.gte with
          | false => rfl
          | true => exact absurd (hgt e hl hc) hg
        rw [if_neg (by rw [hg', Bool.false_or]; exact hg), ih, List.mem_cons]
        constructor
        · rintro ⟨h1, h2⟩; exact ⟨.inr h1, h2⟩
        · rintro ⟨rfl | h1, h2⟩
          · obtain ⟨e', h3, h4⟩ := h2
            rw [hl] at h3; cases h3
            exact absurd h4 hg
          · exact ⟨h1, h2⟩

/-- An ended document of before is still the same. -/
theorem mem_of_trunc {after : Option Int} {D : List (Doc P)} {d : Doc P} (h : d ∈ trunc after D) (hl : d.lt ≠ none) : d ∈ D := by
  obtain ⟨x, h1, h2⟩ := List.mem_filterMap.1 h
  unfold truncDoc at h2
  split at h2
  · cases h2
  · cases hx : x.lt with
    | none => rw [hx] at h2; cases h2; exact h1
    | some e =>
      rw [hx] at h2
      dsimp only at h2
      split at h2
      · cases h2; exact absurd rfl hl
      · cases h2; exact h1

/-- Nothing is newer. -/
theorem latestAct_of_trunc {after : Option Int} : ∀ {D : List (Doc P)}, trunc after D = D → latestAct after D = .leave
  | [], _ => rfl
  | [x], h => by
    rw [trunc_cons] at h
    have h1 : gtAfter after x.gte = false := by
      cases hc : gtAfter after x.gte with
      | false => rfl
      | true => simp [truncDoc, hc, trunc] at h
    cases hl : x.lt with
    | none => simp [latestAct, hl, h1]
    | some e =>
      have h2 : gtAfter after e = false := by
        cases hc : gtAfter after e with
        | false => rfl
        | true =>
          simp only [truncDoc, h1, hl, hc, trunc] at h
          have := congrArg (fun l : List (Doc P) => l.map Doc.lt) h
          simp [hl] at this
      simp [latestAct, hl, h1, h2]
  | x :: y :: rest, h => by
    have hlen : (trunc after (y :: rest)).length ≤ (y :: rest).length := List.length_filterMap_le ..
    rw [trunc_cons] at h
    have h2 : trunc after (y :: rest) = y :: rest := by
      cases hx : truncDoc after x with
      | none =>
        rw [hx] at h
        have := congrArg List.length h
        simp at this hlen
        omega
      | some z =>
        rw [hx] at h
        exact (List.cons.inj h).2
    rw [latestAct]
    exact latestAct_of_trunc h2

/-! ## Soundness -/

theorem exists_keysUpTo (db : PyStr) (m : Mongo) : ∃ t, KeysUpTo db m t := by
  have hmax : ∀ l : List Int, ∃ t, ∀ x ∈ l, x ≤ t := by
    intro l
    induction l with
    | nil => exact ⟨0, by simp⟩
    | cons a l ih =>
      obtain ⟨t, ht⟩ := ih
      refine ⟨max a t, fun x hx => ?_⟩
      rcases List.mem_cons.1 hx with rfl | hx
      · omega
      · have := ht x hx; omega
  obtain ⟨t, ht⟩ := hmax (((m.data db).map MongoRecord.id).flatMap (fun id => akeys (histOf (m.data db) id)) ++ akeys (committedOptionsOf db m))
  refine ⟨t, fun id w hw hne => ht w ?_⟩
  rcases hw with hw | hw
  · exact List.mem_append_left _ (List.mem_flatMap.2 ⟨id, mem_ids_of_hist hne, hw⟩)
  · exact List.mem_append_right _ hw

theorem SoundIndices.mono {s t : Int} {es : ES P} (h : SoundIndices s es) (hst : s ≤ t) : SoundIndices t es :=
  ⟨h.ok, h.fields, h.latest, h.archived, fun d hd => by
    obtain ⟨g1, g2⟩ := h.old d hd
    exact ⟨by omega, fun n hn => by have := g2 n hn; omega⟩⟩

theorem KeysUpTo.mono {m : Mongo} {s t : Int} (h : KeysUpTo db m s) (hst : s ≤ t) : KeysUpTo db m t :=
  fun id w h1 h2 => by have := h id w h1 h2; omega

/-- The indices after syncs. -/
theorem runSyncs_sound (X : Parser P) (maxDocs : Nat) : ∀ (ms : List Mongo) (es es' : ES P) (s : Int), (∀ m ∈ ms, DbOk db m) → SoundIndices s es →
    runSyncs X maxDocs db es ms = .ok es' → ∃ t, SoundIndices t es'
  | [], es, es', s, _, h, hr => by cases hr; exact ⟨s, h⟩
  | m :: ms, es, es', s, hm, h, hr => by
    obtain ⟨t, ht⟩ := exists_keysUpTo db m
    obtain ⟨es1, h1, h2, _⟩ := sync_each_raw (hm m (by simp)) X maxDocs h (Int.le_max_left s t) (ht.mono (Int.le_max_right s t))
    simp only [runSyncs, h1] at hr
    exact runSyncs_sound X maxDocs ms es1 es' _ (fun m h => hm m (by simp [h])) h2 hr

/-! ## The two syncs -/

theorem syncOps_same {maxDocs : Nat} {m : Mongo} {es es0 : ES P} {ops : List (BulkOp P)}
    (h : syncOps X maxDocs db false m es = .ok (es0, ops)) : es0 = es := by
  unfold syncOps at h
  split at h
  · cases h; rfl
  · split at h
    · cases h
    · cases h; rfl
    · simp only [Bool.false_eq_true, if_false] at h
      split at h
      · cases h
      · cases h; rfl

theorem sync_of_ops {maxDocs : Nat} {m : Mongo} {es es0 : ES P} {ops : List (BulkOp P)}
    (h : syncOps X maxDocs db false m es = .ok (es0, ops)) : sync X maxDocs db false m es = .ok (es.applyOps ops) := by
  have := syncOps_same h
  subst this
  simp only [sync, h]

/-- What is in the indices after both. -/
theorem Overlap.parts {maxDocs : Nat} {m1 m2 : Mongo} {es : ES P} {early late written : List (BulkOp P)}
    (h : Overlap X maxDocs db m1 m2 es early late written) (hm1 : DbOk db m1) (hm2 : DbOk db m2) (hok : LatestOk es) :
    LatestOk (es.applyOps written) ∧
    (∀ d, d ∈ (es.applyOps written).archived ↔ d ∈ (es.applyOps early).archived ∨ d ∈ (es.applyOps late).archived) ∧
    ∀ id, ((es.applyOps written).latestOf id = (es.applyOps early).latestOf id ∨
      (es.applyOps written).latestOf id = (es.applyOps late).latestOf id) ∧
      (LastOneOf id written late → (es.applyOps written).latestOf id = (es.applyOps late).latestOf id) := by
  obtain ⟨⟨_, h1⟩, ⟨_, h2⟩, hp⟩ := h
  obtain ⟨g1, c1, _⟩ := syncOps_latest hm1.nodup h1
  obtain ⟨g2, c2, _⟩ := syncOps_latest hm2.nodup h2
  have hmem : ∀ op, op ∈ written ↔ op ∈ early ∨ op ∈ late := fun op => hp.mem_iff.trans List.mem_append
  have gw : ∀ op ∈ written, GenOp op := fun op ho => ((hmem op).1 ho).elim (g1 op) (g2 op)
  refine ⟨hok.applyOps gw, fun d => ?_, fun id => ?_⟩
  · rw [mem_archived_ops hok gw, mem_archived_ops hok g1, mem_archived_ops hok g2]
    simp only [hmem]
    constructor
    · rintro (h | ⟨k, x, h | h⟩)
      · exact .inl (.inl h)
      · exact .inl (.inr ⟨k, x, h⟩)
      · exact .inr (.inr ⟨k, x, h⟩)
    · rintro ((h | ⟨k, x, h⟩) | (h | ⟨k, x, h⟩))
      · exact .inl h
      · exact .inr ⟨k, x, .inl h⟩
      · exact .inl h
      · exact .inr ⟨k, x, .inr h⟩
  · have a1 := applyOps_latestOf hok g1 c1 id
    have a2 := applyOps_latestOf hok g2 c2 id
    rcases applyOps_last hok gw id with ⟨before, op, after, k1, k2, k3, k4⟩ | ⟨k1, k2⟩
    · have hop : op ∈ written := by rw [k1]; simp
      refine ⟨((hmem op).1 hop).imp (fun ho => ?_) (fun ho => ?_), fun hl => ?_⟩
      · rw [k4, a1.1 op ho k2]
      · rw [k4, a2.1 op ho k2]
      · rw [k4, a2.1 op (hl before op after k1 k2 k3) k2]
    · have : (es.applyOps written).latestOf id = (es.applyOps late).latestOf id := by
        rw [k2, a2.2 (fun op ho => k1 op ((hmem op).2 (.inr ho)))]
      exact ⟨.inr this, fun _ => this⟩

/-- The archives get nothing that the later sync does not write. -/
theorem archived_later {maxDocs : Nat} {m1 m2 : Mongo} {es es1 es2 : ES P} {t : Int} {id : PyStr} (hm1 : DbOk db m1) (hm2 : DbOk db m2)
    (hok : LatestOk es) (h1 : sync X maxDocs db false m1 es = .ok es1) (h2 : sync X maxDocs db false m2 es = .ok es2)
    (hl : LaterFor X db id t m1 m2) (hp : NoPendingOf db id m2) {d : Doc P} (hd : d ∈ es1.archived) (hid : d.id = id) : d ∈ es2.archived := by
  obtain ⟨e1, sel1, k1, _, a1, _, _, _⟩ := sync_effect hm1 X maxDocs hok
  obtain ⟨e2, sel2, k2, _, a2, _, _, r2⟩ := sync_effect hm2 X maxDocs hok
  rw [h1] at k1; cases k1
  rw [h2] at k2; cases k2
  rcases List.mem_append.1 (a1.mem_iff.1 hd) with hd | hd
  · exact a2.mem_iff.2 (List.mem_append_left _ hd)
  obtain ⟨r, hr, hd⟩ := List.mem_flatMap.1 hd
  obtain ⟨g1, e, g2, g3⟩ := (mem_toArchive (hm1.good X r.id)).1 hd
  have hrid : r.id = id := by rw [← hid, hm1.docId X g1]
  change d ∈ recDocs X (committedOptionsOf db m1) (m1.data db) r.id at g1
  rw [hrid, ← hl.trunc hm1 hm2] at g1
  have g4 := mem_of_trunc g1 (by rw [g2]; nofun)
  have hne : histOf (m2.data db) id ≠ [] := by
    intro he; rw [recDocs_nil he] at g4; cases g4
  obtain ⟨r', hr', e'⟩ := List.mem_map.1 (mem_ids_of_hist hne)
  rw [← e'] at g4
  have g5 : d ∈ toArchive es.version (dbDocs X db m2 r') := (mem_toArchive (hm2.good X r'.id)).2 ⟨g4, e, g2, g3⟩
  cases hs : sel2 r' with
  | true => exact a2.mem_iff.2 (List.mem_append_right _ (List.mem_flatMap.2 ⟨r', List.mem_filter.2 ⟨hr', hs⟩, g5⟩))
  | false =>
    rcases r2 r' hr' hs with h | h
    · exact absurd h (hp r' hr' e')
    · have := toArchive_of_trunc (hm2.good X r'.id) h
      unfold dbDocs at g5
      rw [this] at g5; cases g5

theorem archived_sub {maxDocs : Nat} {m : Mongo} {es es' : ES P} (hm : DbOk db m) (hok : LatestOk es)
    (h : sync X maxDocs db false m es = .ok es') {d : Doc P} (hd : d ∈ es.archived) : d ∈ es'.archived := by
  obtain ⟨e, sel, k, _, a, _⟩ := sync_effect hm X maxDocs hok
  rw [h] at k; cases k
  exact a.mem_iff.2 (List.mem_append_left _ hd)

/-- A record that has the same documents at both times is the same in the latest index. -/
theorem latest_unchanged {maxDocs : Nat} {m1 m2 : Mongo} {es es1 es2 : ES P} {id : PyStr} (hm1 : DbOk db m1) (hm2 : DbOk db m2)
    (hok : LatestOk es) (h1 : sync X maxDocs db false m1 es = .ok es1) (h2 : sync X maxDocs db false m2 es = .ok es2)
    (hD : recDocs X (committedOptionsOf db m1) (m1.data db) id = recDocs X (committedOptionsOf db m2) (m2.data db) id)
    (hp1 : NoPendingOf db id m1) (hp2 : NoPendingOf db id m2) : es1.latestOf id = es2.latestOf id := by
  have key : ∀ (m : Mongo) (es' : ES P), DbOk db m → NoPendingOf db id m → sync X maxDocs db false m es = .ok es' →
      es'.latestOf id = (latestAct es.version (recDocs X (committedOptionsOf db m) (m.data db) id)).on (es.latestOf id) := by
    intro m es' hm hp h
    obtain ⟨e, sel, k, _, _, a, b, c⟩ := sync_effect hm X maxDocs hok
    rw [h] at k; cases k
    by_cases hid : id ∈ ((m.data db).filter sel).map MongoRecord.id
    · obtain ⟨r, hr, rfl⟩ := List.mem_map.1 hid
      exact a r (List.mem_filter.1 hr).1 (List.mem_filter.1 hr).2
    · rw [b id hid]
      have : latestAct es.version (recDocs X (committedOptionsOf db m) (m.data db) id) = .leave := by
        by_cases hne : histOf (m.data db) id = []
        · rw [recDocs_nil hne]; rfl
        · obtain ⟨r, hr, rfl⟩ := List.mem_map.1 (mem_ids_of_hist hne)
          have hs : sel r = false := by
            cases hs : sel r with
            | false => rfl
            | true => exact absurd (List.mem_map_of_mem (List.mem_filter.2 ⟨hr, hs⟩)) hid
          rcases c r hr hs with h | h
          · exact absurd h (hp r hr rfl)
          · exact latestAct_of_trunc h
      rw [this]
      rfl
  rw [key m1 es1 hm1 hp1 h1, key m2 es2 hm2 hp2 h2, hD]

/-- What is found of a record, by what the indices have of it. -/
theorem found_mem {es : ES P} {t : Int} (hs : SoundIndices t es) (at_ : SearchAt) (id : PyStr) (d : Doc P) :
    d ∈ foundFor es at_ id ↔ match at_ with
      | .latest => es.latestOf id = some d
      | .all => es.latestOf id = some d ∨ d ∈ es.archived ∧ d.id = id
      | .version v => (es.latestOf id = some d ∨ d ∈ es.archived ∧ d.id = id) ∧ d.inRange v = true := by
  cases at_ with
  | latest => rw [found_latest hs, Option.mem_toList]
  | version v =>
    rw [(found_one hs id v).mem_iff, List.mem_filter, List.mem_append, List.mem_filter, Option.mem_toList, decide_eq_true_eq]
  | all =>
    have : d ∈ foundFor es .all id ↔ d ∈ es.all ∧ d.id = id := by
      unfold foundFor
      rw [List.mem_filter]
      simp [found, ES.search, Search.run]
    rw [this, mem_all hs.ok]
    constructor
    · rintro ⟨⟨i, h⟩ | h, hid⟩
      · obtain rfl := (hs.latest i d h).1.symm.trans hid
        exact .inl h
      · exact .inr ⟨h, hid⟩
    · rintro (h | ⟨h, hid⟩)
      · exact ⟨.inl ⟨id, h⟩, (hs.latest id d h).1⟩
      · exact ⟨.inr h, hid⟩

/-- Both syncs find what the later one alone does, if the latest index has it. -/
theorem Overlap.found {maxDocs : Nat} {m1 m2 : Mongo} {es : ES P} {early late written : List (BulkOp P)}
    (h : Overlap X maxDocs db m1 m2 es early late written) (hm1 : DbOk db m1) (hm2 : DbOk db m2) {s : Int} (hs : SoundIndices s es)
    {t : Int} {id : PyStr} (hl : LaterFor X db id t m1 m2) (hp : NoPendingOf db id m2)
    (hlat : (es.applyOps written).latestOf id = (es.applyOps late).latestOf id) (at_ : SearchAt) (d : Doc P) :
    d ∈ foundFor (es.applyOps written) at_ id ↔ d ∈ foundFor (es.applyOps late) at_ id := by
  obtain ⟨w1, w2, w3⟩ := h.parts hm1 hm2 hs.ok
  obtain ⟨⟨_, h1⟩, ⟨_, h2⟩, _⟩ := h
  have h1 := sync_of_ops h1
  have h2 := sync_of_ops h2
  obtain ⟨t1, ht1⟩ := exists_keysUpTo db m1
  obtain ⟨t2, ht2⟩ := exists_keysUpTo db m2
  obtain ⟨e1, k1, s1, _⟩ := sync_each_raw hm1 X maxDocs hs (by omega : s ≤ max s (max t1 t2)) (ht1.mono (by omega))
  obtain ⟨e2, k2, s2, _⟩ := sync_each_raw hm2 X maxDocs hs (by omega : s ≤ max s (max t1 t2)) (ht2.mono (by omega))
  rw [h1] at k1; cases k1
  rw [h2] at k2; cases k2
  have hall : ∀ d ∈ (es.applyOps written).all, d ∈ (es.applyOps early).all ∨ d ∈ (es.applyOps late).all := by
    intro d hd
    rcases (mem_all w1).1 hd with ⟨i, hd⟩ | hd
    · rcases (w3 i).1 with e | e
      · exact .inl ((mem_all s1.ok).2 (.inl ⟨i, e ▸ hd⟩))
      · exact .inr ((mem_all s2.ok).2 (.inl ⟨i, e ▸ hd⟩))
    · exact ((w2 d).1 hd).imp (fun h => (mem_all s1.ok).2 (.inr h)) (fun h => (mem_all s2.ok).2 (.inr h))
  have hw : SoundIndices (max s (max t1 t2)) (es.applyOps written) :=
    ⟨w1, fun d hd => (hall d hd).elim (s1.fields d) (s2.fields d),
      fun i d hd => (w3 i).1.elim (fun e => s1.latest i d (e ▸ hd)) (fun e => s2.latest i d (e ▸ hd)),
      fun d hd => ((w2 d).1 hd).elim (s1.archived d) (s2.archived d),
      fun d hd => (hall d hd).elim (s1.old d) (s2.old d)⟩
  have harc : (d ∈ (es.applyOps written).archived ∧ d.id = id) ↔ (d ∈ (es.applyOps late).archived ∧ d.id = id) := by
    refine and_congr_left fun hid => ?_
    rw [w2]
    exact ⟨fun h => h.elim (fun h => archived_later hm1 hm2 hs.ok h1 h2 hl hp h hid) (fun h => h), .inr⟩
  rw [found_mem hw, found_mem s2, hlat]
  cases at_ <;> simp only [harc]

/-- If the operations of the earlier sync all come first, then the later sync writes last for all records that it has an operation for. -/
theorem lastOneOf_append {P : Type} {late a b : List (BulkOp P)} (hb : b.Perm late) {id : PyStr} (h : ∃ op ∈ late, op.latestId = some id) :
    LastOneOf id (a ++ b) late := by
  intro before op after he hid hno
  obtain ⟨x, hx, hxid⟩ := h
  rcases List.append_eq_append_iff.1 he with ⟨c, h1, h2⟩ | ⟨c, h1, h2⟩
  · exact hb.mem_iff.1 (by rw [h2]; simp)
  · cases c with
    | nil => exact hb.mem_iff.1 (by rw [← List.nil_append b, ← h2]; simp)
    | cons y c =>
      obtain ⟨rfl, rfl⟩ := List.cons.inj h2
      exact absurd hxid (hno x (List.mem_append_right _ (hb.mem_iff.2 hx)))

end

theorem statesOf_snoc (U : Unicode) (db : PyStr) (x : List ApiCall) : ∀ (parts : List (List ApiCall)) (first : List ApiCall),
    statesOf U db first (parts ++ [x]) = statesOf U db first parts ++ [afterCalls U db (first ++ parts.flatten ++ x)]
  | [], first => by simp [statesOf]
  | p :: parts, first => by
    rw [List.cons_append, statesOf, statesOf, statesOf_snoc U db x parts (first ++ p)]
    simp

theorem runSyncs_snoc {P : Type} {X : Parser P} {maxDocs : Nat} {db : PyStr} {m : Mongo} {es' : ES P} : ∀ {ms : List Mongo} {es0 es : ES P},
    runSyncs X maxDocs db es0 ms = .ok es → sync X maxDocs db false m es = .ok es' → runSyncs X maxDocs db es0 (ms ++ [m]) = .ok es'
  | [], es0, es, h1, h2 => by
    cases h1
    simp only [List.nil_append, runSyncs, h2]
  | a :: ms, es0, es, h1, h2 => by
    rw [runSyncs] at h1
    rw [List.cons_append, runSyncs]
    split at h1
    · cases h1
    · exact runSyncs_snoc h1 h2

/-- A record without puns, between two moments. -/
theorem calls_laterFor {U : Unicode} {db : PyStr} {E : ParseEnv} (hE : E.IgnoresOrder) (hU : U.Sane) {a b : List ApiCall} (ho : Orderly (a ++ b))
    (hv : ∃ v, IsVersion (afterCalls U db a) db v) {id : PyStr}
    (hn : NoPunsAmong U (((a ++ b).flatMap ApiCall.stream).filter (fun r => decide (r.id = id)))) :
    ∃ t, (a.filterMap ApiCall.clock?).getLast? = some t ∧ LaterFor (realParser E) db id t (afterCalls U db a) (afterCalls U db (a ++ b)) := by
  have hR := realParser_respects (E := E) hE (fun _ => placesOf U _ hn id)
  have hX : ∀ a b o, DEq ((classFor id (placesOf U _ hn id) id).named) a b → (realParser E).parse a o = (realParser E).parse b o := by
    rw [classFor_self]
    exact fun a b o => hR.named id a b o
  have hq : ∀ c ∈ a ++ b, Fits (fun i => (classFor id (placesOf U _ hn id) i).named) U c.stream := fun c hc =>
    fits_classFor hU id hn (fun r hr => List.mem_flatMap.2 ⟨c, hc, hr⟩)
  obtain ⟨t, h1, h2, s', hi, h3, h4⟩ := life_evolves hq ho hv.choose_spec
  exact ⟨t, h1, h4.laterFor hX h2 h3⟩

end Splitgill
