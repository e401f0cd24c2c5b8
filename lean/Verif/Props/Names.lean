import Verif.Proof.Names3
import Verif.Props.Search
/-!
# C46, C58, C60: names of databases, indices and records

A `Cluster` is an Elasticsearch with the indices of several databases; `Cluster.of db` are the indices of one of them,
and `sync`, `resyncArcs`, `ES.search`, ... the functions of the model of a database alone. Database names do not
contain `*` (Elasticsearch does not accept them).
-/

namespace Splitgill.Props
open Splitgill

/-! ## C46 -/

/-- C46 in full: what a database does depends only on its own indices, and changes only those. -/
def C46_full : Prop :=
  ∀ (P : Type) (X : Parser P) (maxDocs : Nat) (db : PyStr) (m : Mongo) (c c' : Cluster P), '*' ∉ db →
    Cluster.of db c = Cluster.of db c' →
      c.version db = c'.version db ∧
      (∀ v, c.search db v = c'.search db v) ∧
      (∀ resync, (c.sync X maxDocs db resync m).map (Cluster.of db) = (c'.sync X maxDocs db resync m).map (Cluster.of db)) ∧
      (c.resyncArcs X maxDocs db m).map (Cluster.of db) = (c'.resyncArcs X maxDocs db m).map (Cluster.of db) ∧
      (∀ resync c1, c.sync X maxDocs db resync m = .ok c1 → ∀ d, d ≠ db → Cluster.of d c1 = Cluster.of d c) ∧
      (∀ c1, c.resyncArcs X maxDocs db m = .ok c1 → ∀ d, d ≠ db → Cluster.of d c1 = Cluster.of d c)

/-- A document for examples. -/
def exDoc (id : PyStr) (v : Int) : Doc (Dict × ParsingOptions) := ⟨id, v, v, none, none, (exData id v, exOpts 1)⟩

/-- A cluster for examples: one document in the latest index of each database. -/
def exCluster (dbs : List PyStr) : Cluster (Dict × ParsingOptions) :=
  dbs.map (fun d => ((d, .latest), [(some ['a'], exDoc d 1)]))

/-- Searching `foo` at all versions finds the document of `foo-bar`. -/
theorem C46_refuted_search : (exCluster ["foo-bar".toList]).search "foo".toList .all = [exDoc "foo-bar".toList 1] ∧
    (exCluster ["foo-bar".toList]).version "foo".toList = some 1 := by
  have hm : glob (wildcardName "foo".toList) (indexName "foo-bar".toList .latest) = true :=
    (wildcard_match (by decide) _ _).2 (.inr (.inl ⟨"bar".toList, rfl⟩))
  have e : (exCluster ["foo-bar".toList]).seen (wildcardName "foo".toList) =
      [(.latest, [(some ['a'], exDoc "foo-bar".toList 1)])] := by
    unfold Cluster.seen Cluster.matching exCluster
    simp only [List.map_cons, List.map_nil, List.filter_cons, hm, if_true, List.filter_nil]
  constructor
  · unfold Cluster.search
    rw [e]
    rfl
  · unfold Cluster.version
    rw [e]
    rfl

/-- **C46 does not hold in full**: names of which one is the other followed by a dash and more. -/
theorem C46_refuted : ¬ C46_full := by
  intro h
  have := (h _ exParser 10 "foo".toList (exDbOf []) (exCluster ["foo-bar".toList]) [] (by decide) rfl).2.1 .all
  rw [C46_refuted_search.1] at this
  exact absurd (congrArg List.length this) (by decide)

/-- Resyncing `x` deletes the latest index of `x-arc-1`. -/
theorem C46_refuted_resync : ∃ c1, (exCluster ["x-arc-1".toList]).sync exParser 10 ['x'] true (exDbOf exCalls1) = .ok c1 ∧
    Cluster.of "x-arc-1".toList c1 = [] ∧ Cluster.of "x-arc-1".toList (exCluster ["x-arc-1".toList]) ≠ [] := by
  have hm : glob (arcWildcardName ['x']) (indexName "x-arc-1".toList .latest) = true :=
    (arcWildcard_match (by decide) _ _).2 (.inr (.inr ⟨"1".toList, rfl⟩))
  have e : (exCluster ["x-arc-1".toList]).deleteArcs ['x'] = [] := by
    unfold Cluster.deleteArcs exCluster
    simp only [List.map_cons, List.map_nil, List.filter_cons, hm]
    rfl
  have e2 : (exCluster ["x-arc-1".toList]).sync exParser 10 ['x'] true (exDbOf exCalls1) =
      Cluster.sync exParser 10 ['x'] true (exDbOf exCalls1) [] := by
    unfold Cluster.sync
    simp only [if_neg (show ¬ (!hasData ['x'] (exDbOf exCalls1)) = true by decide)]
    have hs : ∀ es : ES (Dict × ParsingOptions), syncScope ['x'] true (exDbOf exCalls1) es =
        .ok (some (fun r => r.version.isSome, none)) := fun _ => rfl
    simp only [hs, if_true, e]
    rfl
  rw [e2]
  exact ⟨_, rfl, rfl, by decide⟩

/-- With a database `x-arc`, every sync of `x` that has something to do raises `ValueError`. -/
theorem C46_refuted_arcs : (exCluster ["x-arc".toList]).arcStatus ['x'] = .error .valueError := by
  have hm : glob (arcWildcardName ['x']) (indexName "x-arc".toList .latest) = true :=
    (arcWildcard_match (by decide) _ _).2 (.inr (.inl rfl))
  unfold Cluster.arcStatus Cluster.matching
  simp only [exCluster, List.map_cons, List.map_nil, List.filter_cons, hm, if_true, List.filter_nil]
  rfl

/-- **C46 (names).** Different indices have different names. -/
theorem C46_names (d d' : PyStr) (ix ix' : Ix) (h : indexName d ix = indexName d' ix') : d = d' ∧ ix = ix' :=
  indexName_inj h

/-- **C46 (wildcard).** The wildcard of a database matches exactly: its own indices, those of databases whose name
starts with its name and a dash, and the archives of the database whose name with `-arc` is its own. -/
theorem C46_wildcard (db d : PyStr) (ix : Ix) (hdb : '*' ∉ db) :
    glob (wildcardName db) (indexName d ix) = true ↔
      d = db ∨ (db ++ "-".toList) <+: d ∨ (db = d ++ "-arc".toList ∧ ∃ n, ix = .arc n) :=
  wildcard_match hdb d ix

/-- **C46 (archive wildcard).** The wildcard of the archives of a database matches exactly its archives, and all
indices of databases whose name is its own with `-arc`, or starts with that and a dash. -/
theorem C46_arc_wildcard (db d : PyStr) (ix : Ix) (hdb : '*' ∉ db) :
    glob (arcWildcardName db) (indexName d ix) = true ↔
      (d = db ∧ ∃ n, ix = .arc n) ∨ d = db ++ "-arc".toList ∨ (db ++ "-arc-".toList) <+: d :=
  arcWildcard_match hdb d ix

/-- **C46 (searching; partial).** For a database whose name is no prefix (with a dash) of others, and is no other name
with `-arc`: searches and `get_elasticsearch_version()` are those of the database alone. -/
theorem C46_search_partial {P : Type} (db : PyStr) (c : Cluster P) (hdb : '*' ∉ db) (h : Isolated db c) :
    c.version db = (Cluster.of db c).version ∧
    ∀ v, c.search db v = (ES.search (Cluster.of db c) v).run (Cluster.of db c) := by
  constructor
  · unfold Cluster.version
    rw [h.seen hdb]
  · intro v
    unfold Cluster.search Search.run
    rw [h.seen hdb, Cluster.docs_of]
    rfl

/-- **C46 (sync; partial).** For such a database: `sync()`, with or without `resync`, does to its indices what it does
to those of the database alone, and nothing to others. -/
theorem C46_sync_partial {P : Type} (X : Parser P) (maxDocs : Nat) (db : PyStr) (resync : Bool) (m : Mongo)
    (c : Cluster P) (hdb : '*' ∉ db) (h : Isolated db c) :
    (c.sync X maxDocs db resync m).map (Cluster.of db) = sync X maxDocs db resync m (Cluster.of db c) ∧
    ∀ c1, c.sync X maxDocs db resync m = .ok c1 → ∀ d, d ≠ db → Cluster.of d c1 = Cluster.of d c := by
  unfold Cluster.sync sync syncOps
  rw [h.seen hdb]
  by_cases hdata : (!hasData db m) = true
  · simp only [if_pos hdata]
    refine ⟨rfl, ?_⟩
    rintro c1 e d hd
    cases e
    rfl
  · simp only [if_neg hdata]
    cases hsc : syncScope db resync m (Cluster.of db c) with
    | error e => exact ⟨rfl, fun c1 h => by cases h⟩
    | ok o =>
      cases o with
      | none =>
        refine ⟨rfl, ?_⟩
        rintro c1 e d hd
        cases e
        rfl
      | some p =>
        obtain ⟨sel, lastSync⟩ := p
        dsimp only
        have hiso : Isolated db (if resync = true then c.deleteArcs db else c) := by
          split
          · exact h.sub (Cluster.deleteArcs_sub db c)
          · exact h
        have hof : Cluster.of db (if resync = true then c.deleteArcs db else c) =
            if resync = true then (Cluster.of db c).deleteArcs else Cluster.of db c := by
          split
          · exact h.deleteArcs_self hdb
          · rfl
        have hother : ∀ d, d ≠ db → Cluster.of d (if resync = true then c.deleteArcs db else c) = Cluster.of d c := by
          intro d hd
          split
          · exact h.deleteArcs_other hdb hd
          · rfl
        rw [hiso.arcStatus hdb]
        dsimp only
        rw [← hof]
        cases generateOps X maxDocs (committedOptionsOf db m) lastSync
            (Cluster.of db (if resync = true then c.deleteArcs db else c)).arcStatus ((m.data db).filter sel) with
        | error e => exact ⟨rfl, fun c1 h => by cases h⟩
        | ok p =>
          refine ⟨congrArg Except.ok (applyAll_self db p.1 _), ?_⟩
          rintro c1 e d hd
          cases e
          rw [applyAll_other hd, hother d hd]

/-- **C46 (`resync_arcs`; partial).** The same for `resync_arcs()`. -/
theorem C46_resync_arcs_partial {P : Type} (X : Parser P) (maxDocs : Nat) (db : PyStr) (m : Mongo)
    (c : Cluster P) (hdb : '*' ∉ db) (h : Isolated db c) :
    (c.resyncArcs X maxDocs db m).map (Cluster.of db) = resyncArcs X maxDocs db m (Cluster.of db c) ∧
    ∀ c1, c.resyncArcs X maxDocs db m = .ok c1 → ∀ d, d ≠ db → Cluster.of d c1 = Cluster.of d c := by
  unfold Cluster.resyncArcs resyncArcs
  have hiso : Isolated db (c.deleteArcs db) := h.sub (Cluster.deleteArcs_sub db c)
  dsimp only
  rw [hiso.arcStatus hdb, h.deleteArcs_self hdb]
  dsimp only
  cases generateOps X maxDocs (committedOptionsOf db m) none (Cluster.of db c).deleteArcs.arcStatus
      ((m.data db).filter (fun r => r.version.isSome)) with
  | error e => exact ⟨rfl, fun c1 h => by cases h⟩
  | ok p =>
    refine ⟨?_, ?_⟩
    · rw [← h.deleteArcs_self hdb]
      exact congrArg Except.ok (applyAll_self db _ _)
    · rintro c1 e d hd
      cases e
      rw [applyAll_other hd, h.deleteArcs_other hdb hd]

/-- **C46 (writing).** Whatever the names, a `sync()` that is no resync changes no index of another database. -/
theorem C46_writes {P : Type} (X : Parser P) (maxDocs : Nat) (db : PyStr) (m : Mongo)
    (c c1 : Cluster P) (h : c.sync X maxDocs db false m = .ok c1) (d : PyStr) (hd : d ≠ db) :
    Cluster.of d c1 = Cluster.of d c := by
  unfold Cluster.sync at h
  simp only [Bool.false_eq_true, if_false] at h
  by_cases hdata : (!hasData db m) = true
  · rw [if_pos hdata] at h
    cases h
    rfl
  · rw [if_neg hdata] at h
    split at h
    · cases h
    · cases h; rfl
    · split at h
      · cases h
      · split at h
        · cases h
        · cases h
          exact applyAll_other hd _ _

/-- Three databases; the first two are isolated although their names are similar. -/
def exClusterIsolated : Cluster (Dict × ParsingOptions) :=
  (([], .latest), []) :: exCluster ["foo".toList, "foob".toList, "bar-foo-baz".toList]

example : Isolated "foo".toList exClusterIsolated ∧ Isolated "foob".toList exClusterIsolated ∧
    exClusterIsolated.search "foo".toList .all = [exDoc "foo".toList 1] := by
  have h : ∀ db ∈ ["foo".toList, "foob".toList], Isolated db exClusterIsolated := by
    unfold Isolated
    decide
  refine ⟨h _ (by simp), h _ (by simp), ?_⟩
  rw [(C46_search_partial _ _ (by decide) (h _ (by simp))).2]
  rfl

/-! ## C58 -/

/-- C58 in full. -/
def C58_full : Prop :=
  ∀ index docId : PyStr, lines (serialiseDelete index docId) = [serialiseDelete index docId] ∧
    decodeDelete (serialiseDelete index docId) = some (index, docId)

/-- A record id that makes two delete ops. -/
def exInjection : PyStr := "a\"}}\n{\"delete\":{\"_index\":\"other\",\"_id\":\"b".toList

set_option maxRecDepth 100000 in
/-- With this id of a record, the op is two ops, of which one deletes a document of another index. -/
theorem C58_refuted_injection : (lines (serialiseDelete "data-x-latest".toList exInjection)).map decodeDelete =
    [some ("data-x-latest".toList, "a".toList), some ("other".toList, "b".toList)] := by
  decide

/-- **C58 does not hold in full**: ids are not escaped. -/
theorem C58_refuted : ¬ C58_full := by
  intro h
  have := congrArg (List.map decodeDelete) (h "data-x-latest".toList exInjection).1
  rw [C58_refuted_injection] at this
  exact absurd (congrArg List.length this) (by decide)

/-- **C58 (partial).** It holds exactly for the names and ids without quotes, backslashes and control characters. -/
theorem C58_partial (index docId : PyStr) :
    (lines (serialiseDelete index docId) = [serialiseDelete index docId] ∧
      decodeDelete (serialiseDelete index docId) = some (index, docId)) ↔ PlainStr index ∧ PlainStr docId := by
  rw [← decodeDelete_iff]
  constructor
  · exact And.right
  · intro h
    obtain ⟨h1, h2⟩ := (decodeDelete_iff index docId).1 h
    exact ⟨lines_one (serialiseDelete_newline h1 h2), h⟩

example : PlainStr "data-x-latest".toList ∧ PlainStr "1-é/ü {}".toList := by
  unfold PlainStr
  decide

/-! ## C60 -/

/-- **C60.** For every database the latest index gets the template for latest indices and the archives that for
archives, whichever patterns match. -/
theorem C60_templates (db : PyStr) :
    templateFor (indexName db .latest) = some .latest ∧ ∀ n, templateFor (indexName db (.arc n)) = some .arc := by
  have hl : glob Template.latest.pattern (indexName db .latest) = true :=
    (latest_pattern _).2 ⟨db, by unfold indexName; exact List.append_assoc _ _ _⟩
  refine ⟨?_, fun n => ?_⟩
  · unfold templateFor
    simp only [List.filter_cons, hl, if_true, List.filter_nil]
    split <;> rfl
  · have ha : glob Template.arc.pattern (indexName db (.arc n)) = true :=
      (arc_pattern _).2 ⟨db, Nat.toDigits 10 n, by
        rw [indexName_arc]
        generalize Nat.toDigits 10 n = ds
        simp only [List.append_assoc]; rfl⟩
    have hn : ¬ glob Template.latest.pattern (indexName db (.arc n)) = true := by
      rw [latest_pattern]
      rintro ⟨a, e⟩
      have : indexName db (.arc n) = indexName a .latest := by
        rw [e]; unfold indexName; exact (List.append_assoc _ _ _).symm
      exact absurd (indexName_inj this).2 (by simp)
    unfold templateFor
    simp only [List.filter_cons, ha, if_true, if_neg hn, List.filter_nil]
    rfl

/-- Both patterns match the latest index of a database `x-arc-y`. -/
example : glob Template.arc.pattern (indexName "x-arc-y".toList .latest) = true ∧
    glob Template.latest.pattern (indexName "x-arc-y".toList .latest) = true :=
  ⟨(arc_pattern _).2 ⟨['x'], "y-latest".toList, rfl⟩, (latest_pattern _).2 ⟨"x-arc-y".toList, rfl⟩⟩

end Splitgill.Props
