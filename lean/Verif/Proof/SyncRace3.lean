import Verif.Proof.SyncRace2
import Verif.Proof.Each2
import Verif.Proof.Writers6
import Verif.Spec.SyncRace
/-!
# Lemmas: records that nobody ingests while a sync runs
-/

namespace Splitgill

variable {U : Unicode} {db id : PyStr}

theorem docsWith_bulkWrite : ∀ (ops : List MongoOp) (c : Coll), (∀ o ∈ ops, o.id ≠ id) → docsWith id (bulkWrite c ops) = docsWith id c
  | [], _, _ => rfl
  | o :: ops, c, h => by
    have := docsWith_bulkWrite ops (applyOp c o) (fun x hx => h x (by simp [hx]))
    exact this.trans (docsWith_applyOp_other c (h o (by simp)))

theorem feed_docsWith {size : Nat} : ∀ (ops : List MongoOp) (s : IngestState), (∀ o ∈ s.buf ++ ops, o.id ≠ id) →
    docsWith id (ops.foldl (feedOp size) s).coll = docsWith id s.coll ∧ ∀ o ∈ (ops.foldl (feedOp size) s).buf, o.id ≠ id
  | [], s, h => ⟨rfl, fun o ho => h o (by simpa using ho)⟩
  | o :: ops, s, h => by
    rw [List.foldl_cons]
    have hb : ∀ x ∈ s.buf ++ [o], x.id ≠ id := fun x hx => h x (by
      rcases List.mem_append.1 hx with hx | hx
      · simp [hx]
      · simp at hx; simp [hx])
    have h1 : docsWith id (feedOp size s o).coll = docsWith id s.coll ∧ ∀ x ∈ (feedOp size s o).buf, x.id ≠ id := by
      unfold feedOp
      dsimp only
      split
      · exact ⟨rfl, hb⟩
      · exact ⟨docsWith_bulkWrite _ _ hb, fun _ hx => nomatch hx⟩
    obtain ⟨g1, g2⟩ := feed_docsWith (size := size) ops (feedOp size s o) (fun x hx => by
      rcases List.mem_append.1 hx with hx | hx
      · exact h1.2 x hx
      · exact h x (by simp [hx]))
    exact ⟨g1.trans h1.1, g2⟩

theorem ingestLoop_docsWith {mf : Option PyStr} {size : Nat} : ∀ (chunks : List (List Record)) (s s' : IngestState),
    (∀ chunk ∈ chunks, ∀ r ∈ chunk, r.id ≠ id) → (∀ o ∈ s.buf, o.id ≠ id) → ingestLoop U mf size s chunks = .ok s' →
    docsWith id s'.coll = docsWith id s.coll
  | [], s, s', _, hb, h => by
    rw [ingestLoop] at h
    cases h
    split
    · rfl
    · exact docsWith_bulkWrite _ _ hb
  | chunk :: rest, s, s', hc, hb, h => by
    rw [ingestLoop] at h
    cases ho : chunkOps U mf s.coll chunk with
    | error e => rw [ho] at h; cases h
    | ok ops =>
      rw [ho] at h
      dsimp only at h
      obtain ⟨g1, g2⟩ := feed_docsWith (size := size) ops s (fun o hm => by
        rcases List.mem_append.1 hm with hm | hm
        · exact hb o hm
        · obtain ⟨r, hr, e⟩ := chunkOps_ids ho o hm
          rw [← e]
          exact hc chunk (by simp) r hr)
      exact (ingestLoop_docsWith rest _ s' (fun c h => hc c (by simp [h])) g2 h).trans g1

theorem commitColl_docsWith {c : Coll} (hp : ∀ r ∈ c, r.id = id → r.version ≠ none) (v : Int) :
    docsWith id (commitColl v c) = docsWith id c := by
  induction c with
  | nil => rfl
  | cons d c ih =>
    have ih := ih (fun r hr => hp r (by simp [hr]))
    unfold docsWith commitColl at ih ⊢
    rw [List.map_cons]
    by_cases hd : d.id = id
    · have hv := hp d (by simp) hd
      have : d.version.isNone = false := by cases h : d.version <;> simp_all
      rw [this, if_neg (by decide), List.filter_cons_of_pos (by simpa using hd), List.filter_cons_of_pos (by simpa using hd), ih]
    · rw [List.filter_cons_of_neg (by split <;> simpa using hd), List.filter_cons_of_neg (by simpa using hd), ih]

theorem rollbackOps_pending : ∀ {c : Coll} {ops : List MongoOp}, rollbackOps c = .ok ops → ∀ o ∈ ops, ∃ d ∈ c, d.id = o.id ∧ d.version = none
  | [], ops, h => by cases h; exact fun _ hm => nomatch hm
  | d :: c, ops, h => by
    rw [rollbackOps] at h
    cases h1 : rollbackOp d with
    | error e => rw [h1] at h; cases h
    | ok op =>
      cases h2 : rollbackOps c with
      | error e => rw [h1, h2] at h; cases h
      | ok ops' =>
        rw [h1, h2] at h
        cases h
        intro o ho
        rcases List.mem_append.1 ho with ho | ho
        · have e : op = some o := by simpa [eq_comm] using ho
          subst e
          refine ⟨d, by simp, ?_⟩
          unfold rollbackOp at h1
          split at h1
          · cases h1
          · next hv =>
            have hv : d.version = none := by cases h : d.version <;> simp_all
            refine ⟨?_, hv⟩
            split at h1
            · cases h1; rfl
            · next hd =>
              unfold revertRecord at h1
              rw [hv] at h1
              simp only [hd] at h1
              dsimp only [Option.isSome] at h1
              simp only [Bool.or_false, Bool.false_eq_true, if_false] at h1
              cases hk : sortDesc (akeys d.diffs) with
              | nil => rw [hk] at h1; cases h1
              | cons v vs =>
                rw [hk] at h1
                dsimp only at h1
                cases ha : aget v d.diffs with
                | none => rw [ha] at h1; cases h1
                | some x =>
                  rw [ha] at h1
                  dsimp only at h1
                  cases hx : patchDict d.data x with
                  | error e => rw [hx] at h1; cases h1
                  | ok y =>
                    rw [hx] at h1
                    cases h1
                    rfl
        · obtain ⟨d', g1, g2⟩ := rollbackOps_pending h2 o ho
          exact ⟨d', by simp [g1], g2⟩

/-- A call does not change the document of a record that it is not given data for and that has nothing uncommitted. -/
theorem call_docsWith {m : Mongo} {c : ApiCall} (hs : ∀ r ∈ c.stream, r.id ≠ id) (hp : NoPendingOf db id m) :
    docsWith id ((c.run U db m).2.data db) = docsWith id (m.data db) := by
  have hcommit : ∀ (clock : Int) (m : Mongo), NoPendingOf db id m → docsWith id ((commit db clock m).2.data db) = docsWith id (m.data db) := by
    intro clock m hp
    by_cases h : db ∈ m.locks
    · rw [commit_locked h]
    · rw [commit_eq h]
      split
      · simp only [Mongo.setData, if_true]
        exact commitColl_docsWith hp clock
      · rfl
  have hdata : ∀ o, (updateOptionsNoCommit db o m).data = m.data := by
    intro o
    unfold updateOptionsNoCommit
    dsimp only
    split <;> split <;> rfl
  cases c with
  | ingest mf rs doCommit clock =>
    simp only [ApiCall.run]
    cases hi : ingest U mf (m.data db) rs with
    | error e => rfl
    | ok c =>
      dsimp only
      have h1 : docsWith id c = docsWith id (m.data db) := by
        unfold ingest ingestSized at hi
        cases hl : ingestLoop U mf 200 { coll := m.data db } (partition rs 200) with
        | error e => rw [hl] at hi; cases hi
        | ok s' =>
          rw [hl] at hi
          cases hi
          exact ingestLoop_docsWith _ _ _ (fun chunk hc r hr => hs r (by
            show r ∈ rs
            rw [← partition_flatten (size := 200) (by decide) rs]
            exact List.mem_flatten.2 ⟨chunk, hc, hr⟩)) (by intro o ho; cases ho) hl
      have e : (m.setData db c).data db = c := by simp [Mongo.setData]
      split
      · rw [hcommit clock (m.setData db c) (fun r hr hid => by
          rw [e] at hr
          have : r ∈ docsWith id c := List.mem_filter.2 ⟨hr, by simpa using hid⟩
          rw [h1] at this
          exact hp r (List.mem_filter.1 this).1 hid), e, h1]
      · rw [e, h1]
  | commit clock => exact hcommit clock m hp
  | updateOptions o doCommit clock =>
    simp only [ApiCall.run, updateOptions]
    have hp' : NoPendingOf db id (updateOptionsNoCommit db o m) := fun r hr => hp r (by rw [hdata] at hr; exact hr)
    split
    · rw [hdata]
    · split
      · rw [hcommit clock _ hp', hdata]
      · rw [hdata]
  | rollbackOptions => rfl
  | rollbackRecords =>
    simp only [ApiCall.run]
    cases hr : rollbackRecords (m.data db) with
    | error e => rfl
    | ok c =>
      dsimp only
      have e : (m.setData db c).data db = c := by simp [Mongo.setData]
      rw [e]
      unfold rollbackRecords at hr
      split at hr
      · cases ho : rollbackOps (m.data db) with
        | error e => rw [ho] at hr; cases hr
        | ok ops =>
          rw [ho] at hr
          cases hr
          have key : ∀ (l : List (List MongoOp)) (c : Coll), (∀ x ∈ l, ∀ o ∈ x, o.id ≠ id) → docsWith id (l.foldl bulkWrite c) = docsWith id c := by
            intro l
            induction l with
            | nil => intro c _; rfl
            | cons x l ih =>
              intro c h
              rw [List.foldl_cons, ih _ (fun y hy => h y (by simp [hy]))]
              exact docsWith_bulkWrite _ _ (h x (by simp))
          apply key
          intro x hx o hox
          obtain ⟨d, g1, g2, g3⟩ := rollbackOps_pending ho o (by
            rw [← partition_flatten (size := 200) (by decide) ops]
            exact List.mem_flatten.2 ⟨x, hx, hox⟩)
          intro hid
          exact hp d g1 (g2.trans hid) g3
      · cases hr; rfl

theorem noPending_of_docs {m m' : Mongo} (h : docsWith id (m'.data db) = docsWith id (m.data db)) (hp : NoPendingOf db id m) :
    NoPendingOf db id m' := by
  intro r hr hid
  have : r ∈ docsWith id (m'.data db) := List.mem_filter.2 ⟨hr, by simpa using hid⟩
  rw [h] at this
  exact hp r (List.mem_filter.1 this).1 hid

theorem findRecord_docsWith (c : Coll) : findRecord id c = (docsWith id c).head? := by
  rw [findRecord, docsWith, ← List.head?_filter]

theorem afterCalls_snoc (calls : List ApiCall) (c : ApiCall) :
    afterCalls U db (calls ++ [c]) = (c.run U db (afterCalls U db calls)).2 := by
  simp [afterCalls, runCalls]

theorem statesOf_docs : ∀ (cs : List ApiCall) (calls : List ApiCall), (∀ c ∈ cs, ∀ r ∈ c.stream, r.id ≠ id) →
    NoPendingOf db id (afterCalls U db calls) → ∀ m ∈ statesOf U db calls (cs.map (fun c => [c])),
      docsWith id (m.data db) = docsWith id ((afterCalls U db calls).data db)
  | [], calls, _, _, m, hm => by
    rw [List.map_nil, statesOf, List.mem_singleton] at hm
    rw [hm]
  | c :: cs, calls, hs, hp, m, hm => by
    rw [List.map_cons, statesOf, List.mem_cons] at hm
    rcases hm with rfl | hm
    · rfl
    · have h1 : docsWith id ((afterCalls U db (calls ++ [c])).data db) = docsWith id ((afterCalls U db calls).data db) := by
        rw [afterCalls_snoc]
        exact call_docsWith (hs c (by simp)) hp
      rw [← h1]
      exact statesOf_docs cs (calls ++ [c]) (fun x hx => hs x (by simp [hx])) (noPending_of_docs h1 hp) m hm

theorem BusySync.during_eq (b : BusySync) (calls : List ApiCall) :
    (b.long U db calls).during = statesOf U db (calls ++ b.before) (b.meanwhile.map (fun c => [c])) := by
  unfold LongSync.during BusySync.long
  cases b.meanwhile <;> rfl

theorem map_flatten_single (cs : List ApiCall) : (cs.map (fun c => [c])).flatten = cs := by
  induction cs with
  | nil => rfl
  | cons c cs ih => rw [List.map_cons, List.flatten_cons, ih]; rfl

/-- The committed versions during a sync are at most the last clock value. -/
theorem statesOf_upTo {K : PyStr → DataClass} : ∀ (parts : List (List ApiCall)) (first : List ApiCall),
    (∀ c ∈ first ++ parts.flatten, Fits K U c.stream) → Orderly (first ++ parts.flatten) → (∃ v, IsVersion (afterCalls U db first) db v) →
    ∃ t, ((first ++ parts.flatten).filterMap ApiCall.clock?).getLast? = some t ∧
      (∀ t', (first.filterMap ApiCall.clock?).getLast? = some t' → t' ≤ t) ∧
      ∀ m ∈ statesOf U db first parts, KeysUpTo db m t ∧ ∀ w ∈ akeys (committedOptionsOf db m), w ≤ t
  | [], first, hq, ho, ⟨v, hv⟩ => by
    obtain ⟨t, h1, h2, _⟩ := life_evolves (a := first) (b := []) (by simpa using hq) (by simpa using ho) hv
    refine ⟨t, by simpa using h1, fun t' h' => by rw [h1] at h'; cases h'; omega, fun m hm => ?_⟩
    rw [statesOf, List.mem_singleton] at hm
    subst hm
    refine ⟨h2.keysUpTo, fun w hw => ?_⟩
    obtain ⟨o, ho⟩ := exists_of_key hw
    have := committedOptionsOf_mem.1 ho
    obtain ⟨_, d, h1, _, h3⟩ := (getOptions_keys (db := db) (m := afterCalls U db first) (some w)).1 (List.mem_map_of_mem this)
    obtain ⟨x, hx, hle⟩ := h2.optVers d h1 w h3
    cases hx; exact hle
  | part :: parts, first, hq, ho, ⟨v, hv⟩ => by
    rw [List.flatten_cons, ← List.append_assoc] at ho hq
    have ok := life_dbOk ho.left.left hv
    obtain ⟨t0, h1, h2, s', hi, h3, h4⟩ := life_evolves (fun c hc => hq c (List.mem_append_left _ hc)) ho.left hv
    have hl := h4.laterFor (X := (⟨fun _ _ => (), fun _ _ => true, fun _ _ => true⟩ : Parser Unit)) (id := []) (fun _ _ _ _ => rfl) h2 h3
    obtain ⟨t, g1, g2, g3⟩ := statesOf_upTo parts (first ++ part) hq ho (hl.isVersion ok)
    have hle : t0 ≤ t := by
      have hc := ho.clock
      rw [List.append_assoc, List.filterMap_append, List.pairwise_append] at hc
      rw [List.append_assoc, List.filterMap_append] at g1
      cases hb : (part ++ parts.flatten).filterMap ApiCall.clock? with
      | nil =>
        rw [hb, List.append_nil, h1] at g1
        cases g1; omega
      | cons x l =>
        rw [hb, List.getLast?_append_of_ne_nil _ (by simp)] at g1
        have := hc.2.2 t0 (List.mem_of_getLast? h1) t (by rw [hb]; exact List.mem_of_getLast? g1)
        omega
    refine ⟨t, by rw [List.flatten_cons, ← List.append_assoc]; exact g1, fun t' h' => by rw [h1] at h'; cases h'; exact hle, fun m hm => ?_⟩
    rcases List.mem_cons.1 hm with rfl | hm
    · refine ⟨fun id w hw hne => Int.le_trans (h2.keysUpTo id w hw hne) hle, fun w hw => ?_⟩
      obtain ⟨o, ho⟩ := exists_of_key hw
      have := committedOptionsOf_mem.1 ho
      obtain ⟨_, d, k1, _, k3⟩ := (getOptions_keys (db := db) (m := afterCalls U db first) (some w)).1 (List.mem_map_of_mem this)
      obtain ⟨x, hx, hle'⟩ := h2.optVers d k1 w k3
      cases hx; omega
    · exact g3 m hm

theorem longSyncs_dbOk : ∀ (bs : List BusySync) (calls : List ApiCall), Orderly (calls ++ bs.flatMap BusySync.calls) →
    (∀ b ∈ bs.head?, ∃ v, IsVersion (afterCalls U db (calls ++ b.before)) db v) →
    ∀ l ∈ longSyncs U db calls bs, ∀ m ∈ l.during, DbOk db m
  | [], _, _, _, _, hl => nomatch hl
  | b :: bs, calls, ho, hv, l, hl => by
    have hv := hv b rfl
    rw [List.flatMap_cons, ← List.append_assoc] at ho
    have ho' : Orderly ((calls ++ b.before) ++ (b.meanwhile.map (fun c => [c])).flatten) := by
      rw [map_flatten_single]
      have := ho.left
      rwa [BusySync.calls, ← List.append_assoc] at this
    have hok := life_dbOks (U := U) (db := db) _ _ ho' hv
    rcases List.mem_cons.1 hl with rfl | hl
    · rw [BusySync.during_eq]
      exact hok
    · refine longSyncs_dbOk bs (calls ++ b.calls) ho (fun b' hb' => ?_) l hl
      obtain ⟨v, hv⟩ := hv
      have hmem : b' ∈ bs := List.mem_of_mem_head? hb'
      have ho2 : Orderly ((calls ++ b.before) ++ (b.meanwhile ++ b'.before)) := by
        cases bs with
        | nil => cases hb'
        | cons x xs =>
          cases hb'
          rw [List.flatMap_cons, BusySync.calls, BusySync.calls] at ho
          have e : calls ++ (b.before ++ b.meanwhile) ++ (b'.before ++ b'.meanwhile ++ xs.flatMap BusySync.calls) =
              ((calls ++ b.before) ++ (b.meanwhile ++ b'.before)) ++ (b'.meanwhile ++ xs.flatMap BusySync.calls) := by simp
          rw [e] at ho
          exact ho.left
      obtain ⟨t, h1, h2, s', hi, h3, h4⟩ := life_evolves (K := fun _ => plainClass) (fun c _ => fits_plain U c.stream) ho2 hv
      have hl := h4.laterFor (X := (⟨fun _ _ => (), fun _ _ => true, fun _ _ => true⟩ : Parser Unit)) (id := []) (fun _ _ _ _ => rfl) h2 h3
      have := hl.isVersion (life_dbOk ho2.left hv)
      have e : calls ++ b.calls ++ b'.before = (calls ++ b.before) ++ (b.meanwhile ++ b'.before) := by simp [BusySync.calls]
      rw [e]
      exact this

theorem life_longTimelineFor {P : Type} {X : Parser P} {K : PyStr → DataClass}
    (hX : ∀ a b o, DEq (K id) a b → X.parse a o = X.parse b o) :
    ∀ (bs : List BusySync) (calls : List ApiCall) (s : Int), (∀ c ∈ calls ++ bs.flatMap BusySync.calls, Fits K U c.stream) →
      Orderly (calls ++ bs.flatMap BusySync.calls) →
      (∀ b ∈ bs.head?, ∃ v, IsVersion (afterCalls U db (calls ++ b.before)) db v) →
      (∀ b ∈ bs.head?, ∀ t, ((calls ++ b.before).filterMap ApiCall.clock?).getLast? = some t → s ≤ t) →
      (∀ l ∈ longSyncs U db calls bs, ∀ sel, Scanned db l.during sel (l.cursor sel)) →
      (∀ l ∈ longSyncs U db calls bs, ∀ m ∈ l.during, committedOptionsOf db m = committedOptionsOf db l.start) →
      (∀ b ∈ bs, ∀ c ∈ b.meanwhile, ∀ r ∈ c.stream, r.id ≠ id) →
      (∀ l ∈ longSyncs U db calls bs, NoPendingOf db id l.start) →
      BetweenSyncs (NoUpdateDeleteOf db id) U db calls bs →
      LongTimelineFor X db id s (longSyncs U db calls bs)
  | [], _, _, _, _, _, _, _, _, _, _, _ => trivial
  | b :: bs, calls, s, hq, ho, hv, hs, hc, hopt, hi, hp, hd => by
    have hdb := longSyncs_dbOk (b :: bs) calls ho hv
    have hv := hv b rfl
    have hs := hs b rfl
    have ho0 := ho
    rw [List.flatMap_cons, ← List.append_assoc] at ho hq
    have hmw : (calls ++ b.before) ++ (b.meanwhile.map (fun c => [c])).flatten = calls ++ b.calls := by
      rw [map_flatten_single, BusySync.calls, List.append_assoc]
    have ho' : Orderly ((calls ++ b.before) ++ (b.meanwhile.map (fun c => [c])).flatten) := by rw [hmw]; exact ho.left
    have hq' : ∀ c ∈ (calls ++ b.before) ++ (b.meanwhile.map (fun c => [c])).flatten, Fits K U c.stream := by
      rw [hmw]; exact fun c h => hq c (List.mem_append_left _ h)
    have hmem : b.long U db calls ∈ longSyncs U db calls (b :: bs) := List.mem_cons_self
    have hp0 := hp _ hmem
    have hdocs := statesOf_docs (U := U) (db := db) (id := id) b.meanwhile (calls ++ b.before) (hi b (by simp)) hp0
    have hst : (b.long U db calls).SteadyFor db id := by
      refine ⟨⟨hdb _ hmem, hc _ hmem⟩, ?_, hp0⟩
      intro m hm
      rw [BusySync.during_eq] at hm
      rw [findRecord_docsWith, findRecord_docsWith, hdocs m hm]
      rfl
    obtain ⟨t, g1, g2, g3⟩ := statesOf_upTo (db := db) _ _ hq' ho' hv
    have hup : (b.long U db calls).UpTo db t := by
      refine ⟨fun m hm => ?_, ?_⟩
      · rw [BusySync.during_eq] at hm
        exact (g3 m hm).1
      · have : (b.long U db calls).start ∈ statesOf U db (calls ++ b.before) (b.meanwhile.map (fun c => [c])) := by
          rw [← BusySync.during_eq]; exact List.mem_cons_self
        exact (g3 _ this).2
    have hst' : s ≤ t := by
      obtain ⟨v, hv⟩ := hv
      obtain ⟨t0, k1, _⟩ := life_evolves (K := K) (a := calls ++ b.before) (b := []) (fun c h => hq' c (List.mem_append_left _ (by simpa using h)))
        (by simpa using ho'.left) hv
      exact Int.le_trans (hs t0 k1) (g2 t0 k1)
    cases bs with
    | nil => exact ⟨hst, t, hst', hup⟩
    | cons b' bs =>
      rw [hmw] at g1
      have hend : afterCalls U db (calls ++ b.calls) ∈ (b.long U db calls).during := by
        rw [BusySync.during_eq]
        obtain ⟨ms, hms⟩ := statesOf_getLast U db (b.meanwhile.map (fun c => [c])) (calls ++ b.before)
        rw [hms, hmw]; simp
      have hokE := hdb _ hmem _ hend
      obtain ⟨v, hvE⟩ := hokE.isVersion
      have ho2 : Orderly ((calls ++ b.calls) ++ b'.before) := by
        have := ho
        rw [List.flatMap_cons, BusySync.calls, BusySync.calls] at this
        have e : calls ++ (b.before ++ b.meanwhile) ++ (b'.before ++ b'.meanwhile ++ bs.flatMap BusySync.calls) =
            (calls ++ b.calls ++ b'.before) ++ (b'.meanwhile ++ bs.flatMap BusySync.calls) := by simp [BusySync.calls]
        rw [e] at this
        exact this.left
      have hq2 : ∀ c ∈ (calls ++ b.calls) ++ b'.before, Fits K U c.stream := fun c h => hq c (by
        simp only [List.mem_append, List.flatMap_cons, BusySync.calls] at h ⊢
        tauto)
      obtain ⟨t1, k1, k2, s', hi', k3, k4⟩ := life_evolves hq2 ho2 hvE
      rw [g1] at k1
      cases k1
      have hl := k4.laterFor hX k2 k3
      have hl' : LaterFor X db id t (b.long U db calls).start (b'.long U db (calls ++ b.calls)).start := by
        refine ⟨?_, ?_⟩
        · have e : histOf ((b.long U db calls).start.data db) id = histOf ((afterCalls U db (calls ++ b.calls)).data db) id :=
            histOf_congr (hst.same _ hend).symm
          rw [e]; exact hl.hist
        · intro v o
          rw [← hopt _ hmem _ hend]
          exact hl.opts v o
      have hvN := hl.isVersion hokE
      refine ⟨hst, t, hst', hup, hl', hd.1 t g1, ?_⟩
      refine life_longTimelineFor hX (b' :: bs) (calls ++ b.calls) t hq ho ?_ ?_ (fun l h => hc l (List.mem_cons_of_mem _ h))
        (fun l h => hopt l (List.mem_cons_of_mem _ h)) (fun x h => hi x (List.mem_cons_of_mem _ h)) (fun l h => hp l (List.mem_cons_of_mem _ h)) hd.2
      · intro x hx
        cases hx
        exact hvN
      · intro x hx t' ht'
        cases hx
        rw [List.filterMap_append] at ht'
        have hcl := ho2.clock
        rw [List.filterMap_append, List.pairwise_append] at hcl
        cases hb : b'.before.filterMap ApiCall.clock? with
        | nil =>
          rw [hb, List.append_nil, g1] at ht'
          cases ht'; omega
        | cons y l =>
          rw [hb, List.getLast?_append_of_ne_nil _ (by simp)] at ht'
          have := hcl.2.2 t (List.mem_of_getLast? g1) t' (by rw [hb]; exact List.mem_of_getLast? ht')
          omega

theorem longSyncs_snoc (b : BusySync) : ∀ (bs : List BusySync) (calls : List ApiCall),
    longSyncs U db calls (bs ++ [b]) = longSyncs U db calls bs ++ [b.long U db (calls ++ bs.flatMap BusySync.calls)]
  | [], calls => by simp [longSyncs]
  | x :: bs, calls => by
    rw [List.cons_append, longSyncs, longSyncs_snoc b bs (calls ++ x.calls), longSyncs, List.flatMap_cons, List.append_assoc]
    rfl

/-- The indices after syncs that others disturbed, and after one sync into new indices that nobody disturbed. -/
theorem undisturbed_same {E : ParseEnv} (hE : E.IgnoresOrder) (hU : U.Sane) (maxDocs : Nat) {bs : List BusySync} {b : BusySync}
    (ho : Orderly ((bs ++ [b]).flatMap BusySync.calls)) (hv : ∀ x ∈ (bs ++ [b]).head?, ∃ v, IsVersion (afterCalls U db x.before) db v)
    (hr : SyncsRead U db (bs ++ [b])) (h : UndisturbedRecord U db (bs ++ [b]) id) {es es0 : ES (Option ParsedData)}
    (h1 : runLongSyncs (realParser E) maxDocs db [] (longSyncs U db [] (bs ++ [b])) = .ok es)
    (h0 : sync (realParser E) maxDocs db false (afterCalls U db (bs.flatMap BusySync.calls ++ b.before)) [] = .ok es0) (v : Int) :
    foundFor es (.version v) id = foundFor es0 (.version v) id := by
  have hR := realParser_respects (E := E) hE (fun _ => placesOf U _ h.noPuns id)
  have hX : ∀ a b o, DEq ((classFor id (placesOf U _ h.noPuns id) id).named) a b → (realParser E).parse a o = (realParser E).parse b o := by
    rw [classFor_self]
    exact fun a b o => hR.named id a b o
  have hq : ∀ c ∈ (bs ++ [b]).flatMap BusySync.calls, Fits (fun i => (classFor id (placesOf U _ h.noPuns id) i).named) U c.stream := fun c hc =>
    fits_classFor hU id h.noPuns (fun r hr => List.mem_flatMap.2 ⟨c, hc, hr⟩)
  obtain ⟨x, hx⟩ : ∃ x, (bs ++ [b]).head? = some x := by cases bs <;> exact ⟨_, rfl⟩
  obtain ⟨w, hw⟩ := hv x hx
  have hmx : x ∈ bs ++ [b] := List.mem_of_mem_head? hx
  have hox : Orderly x.before := by
    cases bs with
    | nil =>
      cases hx
      have : Orderly (b.before ++ b.meanwhile) := by simpa [BusySync.calls] using ho
      exact this.left
    | cons y ys =>
      cases hx
      rw [List.cons_append, List.flatMap_cons, BusySync.calls, List.append_assoc] at ho
      exact ho.left
  obtain ⟨t, htl, _⟩ := life_evolves (K := fun _ => plainClass) (U := U) (db := db) (a := x.before) (b := []) (fun c _ => fits_plain U c.stream)
    (by simpa using hox) hw
  have hv' : ∀ x ∈ (bs ++ [b]).head?, ∃ v, IsVersion (afterCalls U db ([] ++ x.before)) db v := by simpa using hv
  have hdb := longSyncs_dbOk (U := U) (db := db) (bs ++ [b]) [] (by simpa using ho) hv'
  have ht := life_longTimelineFor (U := U) (db := db) hX (bs ++ [b]) [] t (by rw [List.nil_append]; exact hq) (by rw [List.nil_append]; exact ho) hv' (fun y hy t' h' => by
      rw [hx] at hy
      cases hy
      rw [List.nil_append, htl] at h'
      cases h'
      omega) hr.cursors hr.options h.notIngested h.noPending h.noUpdateDelete
  have hlast := longSyncs_snoc (U := U) (db := db) b bs []
  have hmem : b.long U db ([] ++ bs.flatMap BusySync.calls) ∈ longSyncs U db [] (bs ++ [b]) := by rw [hlast]; simp
  have hst : (b.long U db ([] ++ bs.flatMap BusySync.calls)).start = afterCalls U db (bs.flatMap BusySync.calls ++ b.before) := by
    simp [BusySync.long]
  have hm : DbOk db (afterCalls U db (bs.flatMap BusySync.calls ++ b.before)) := by
    rw [← hst]
    exact hdb _ hmem _ List.mem_cons_self
  have hp := h.noPending _ hmem
  rw [hst] at hp
  have hes : (foundFor es (.version v) id).Perm ((recDocs (realParser E) (committedOptionsOf db (afterCalls U db (bs.flatMap BusySync.calls ++ b.before)))
      ((afterCalls U db (bs.flatMap BusySync.calls ++ b.before)).data db) id).filter (fun d => d.inRange v)) := by
    have hne : longSyncs U db [] (bs ++ [b]) ≠ [] := by rw [hlast]; simp
    obtain ⟨l, ls, hls⟩ := List.exists_cons_of_ne_nil hne
    rw [hls] at ht h1 hlast
    obtain ⟨es', t', k1, k2, k3⟩ := runLongSyncs_each_first (realParser E) db id maxDocs ls l t ht
    rw [h1] at k1
    cases k1
    have e : (l :: ls).getLast (by simp) = b.long U db ([] ++ bs.flatMap BusySync.calls) := by
      simp only [hlast, List.getLast_append, List.getLast_singleton]
      simp
    rw [e, hst] at k3
    exact k3.found k2 (hm.good _ id) v
  have hes0 : (foundFor es0 (.version v) id).Perm ((recDocs (realParser E) (committedOptionsOf db (afterCalls U db (bs.flatMap BusySync.calls ++ b.before)))
      ((afterCalls U db (bs.flatMap BusySync.calls ++ b.before)).data db) id).filter (fun d => d.inRange v)) := by
    have ho' : Orderly ((bs.flatMap BusySync.calls ++ b.before) ++ []) := by
      rw [List.append_nil]
      rw [List.flatMap_append, List.flatMap_singleton, BusySync.calls, ← List.append_assoc] at ho
      exact ho.left
    obtain ⟨u, hu⟩ := hm.isVersion
    obtain ⟨t0, _, h2, _⟩ := life_evolves (K := fun _ => plainClass) (fun c _ => fits_plain U c.stream) ho' hu
    obtain ⟨es', k1, k2, k3⟩ := sync_each hm (realParser E) maxDocs (soundIndices_nil t0) (Int.le_refl t0) h2.keysUpTo
    rw [h0] at k1
    cases k1
    refine (k3 id _ rfl ?_ ?_ hp).found k2 (hm.good _ id) v
    · rw [version_nil, trunc_none]
      exact ⟨rfl, .refl _⟩
    · intro g
      simp [version_nil, trunc_none, openOf] at g
  exact perm_le_one hes hes0 (hm.found_le _ id v)

end Splitgill
