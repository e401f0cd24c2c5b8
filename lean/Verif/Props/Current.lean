import Verif.Model.Current
import Verif.Spec.Current
import Verif.Props.Names
import Verif.Proof.ParseEq
import Verif.Proof.Query2
/-!
# C104: the indices that a database uses
-/

namespace Splitgill.Props
open Splitgill

variable {P : Type}

/-- C104 in full: `get_current_indices()` lists the indices of this database, and no others. -/
def C104_full : Prop :=
  ∀ (P : Type) (db : PyStr) (c : Cluster P), '*' ∉ db → ∀ name, name ∈ c.currentIndices db ↔
    ∃ ix ∈ akeys (Cluster.of db c), name = indexName db ix

theorem mem_currentIndices {db : PyStr} {c : Cluster P} {name : PyStr} : name ∈ c.currentIndices db ↔
    ∃ k ∈ akeys c, name = indexName k.1 k.2 ∧ glob (wildcardName db) name = true := by
  unfold Cluster.currentIndices Cluster.matching
  rw [(sortBy_perm strLe _).mem_iff, List.mem_map]
  constructor
  · rintro ⟨x, hx, rfl⟩
    rw [List.mem_filter] at hx
    exact ⟨x.1, List.mem_map.2 ⟨x, hx.1, rfl⟩, rfl, hx.2⟩
  · rintro ⟨k, hk, rfl, hg⟩
    obtain ⟨x, hx, rfl⟩ := List.mem_map.1 hk
    exact ⟨x, List.mem_filter.2 ⟨hx, hg⟩, rfl⟩

/-- **C104 does not hold in full**: the indices of `foo-bar` are listed for `foo`. -/
theorem C104_refuted : ¬ C104_full := by
  intro h
  have := (h _ "foo".toList (exCluster ["foo-bar".toList]) (by decide) (indexName "foo-bar".toList .latest)).1
    (mem_currentIndices.2 ⟨("foo-bar".toList, .latest), by decide, rfl,
      (wildcard_match (by decide) _ _).2 (.inr (.inl ⟨"bar".toList, rfl⟩))⟩)
  obtain ⟨ix, hix, _⟩ := this
  exact absurd hix (by simp [Cluster.of, exCluster, akeys])

/-- **C104** (order) for all clusters: the list is in ascending alphabetical order, and no name is in it twice. -/
theorem C104_sorted (db : PyStr) (c : Cluster P) (h : (akeys c).Nodup) :
    (c.currentIndices db).Pairwise (· ≤ ·) ∧ (c.currentIndices db).Nodup := by
  unfold Cluster.currentIndices
  refine ⟨?_, (sortBy_perm strLe _).nodup_iff.2 ?_⟩
  · have htot : ∀ a b, strLe a b = false → strLe b a = true := by
      intro a b hab
      rcases strLe_total a b with h | h
      · rw [hab] at h; cases h
      · exact h
    exact (sortBy_pairwise htot (fun a b c => strLe_trans) _).imp (fun {a b} h => (strLe_iff a b).1 h)
  · have : ((c.matching (wildcardName db)).map Prod.fst).Nodup := h.sublist (List.filter_sublist.map _)
    rw [show (fun x : (PyStr × Ix) × Index P => indexName x.1.1 x.1.2) = (fun k => indexName k.1 k.2) ∘ Prod.fst from rfl,
      ← List.map_map]
    refine this.map (fun k k' hk => ?_)
    exact Prod.ext (indexName_inj hk).1 (indexName_inj hk).2

/-- **C104** (which) for all clusters: exactly the indices that exist and are of this database, of one whose name starts with its name
and a dash, or archives of the database whose name with `-arc` is its own. -/
theorem C104_listed (db : PyStr) (c : Cluster P) (hdb : '*' ∉ db) (name : PyStr) : name ∈ c.currentIndices db ↔
    ∃ d ix, (d, ix) ∈ akeys c ∧ name = indexName d ix ∧
      (d = db ∨ (db ++ "-".toList) <+: d ∨ (db = d ++ "-arc".toList ∧ ∃ n, ix = .arc n)) := by
  rw [mem_currentIndices]
  constructor
  · rintro ⟨k, hk, rfl, hg⟩
    exact ⟨k.1, k.2, hk, rfl, (wildcard_match hdb _ _).1 hg⟩
  · rintro ⟨d, ix, hk, rfl, hg⟩
    exact ⟨(d, ix), hk, rfl, (wildcard_match hdb _ _).2 hg⟩

theorem mem_akeys_of {db : PyStr} {c : Cluster P} {ix : Ix} : ix ∈ akeys (Cluster.of db c) ↔ (db, ix) ∈ akeys c := by
  unfold akeys
  rw [List.mem_map, List.mem_map]
  constructor
  · rintro ⟨x, hx, rfl⟩
    exact ⟨_, Cluster.mem_of.1 hx, rfl⟩
  · rintro ⟨x, hx, he⟩
    exact ⟨(x.1.2, x.2), Cluster.mem_of.2 (by rw [show db = x.1.1 by rw [he]]; exact hx), by rw [he]⟩

/-- **C104 (partial)** for a database whose name is apart from those of others: its own indices, and no others. Missing: other names. -/
theorem C104_own_partial (db : PyStr) (c : Cluster P) (hdb : '*' ∉ db) (h : Isolated db c) (name : PyStr) :
    name ∈ c.currentIndices db ↔ ∃ ix ∈ akeys (Cluster.of db c), name = indexName db ix := by
  rw [C104_listed db c hdb]
  constructor
  · rintro ⟨d, ix, hk, rfl, hd⟩
    by_cases e : d = db
    · subst e
      exact ⟨ix, mem_akeys_of.2 hk, rfl⟩
    · rcases hd with hd | hd | hd
      · exact absurd hd e
      · exact absurd hd (h _ hk e).1
      · exact absurd hd.1 (h _ hk e).2
  · rintro ⟨ix, hix, rfl⟩
    exact ⟨db, ix, mem_akeys_of.1 hix, rfl, .inl rfl⟩

theorem applyIn_keys {db : PyStr} : ∀ (ops : List (BulkOp P)) (c : Cluster P), (akeys c).Nodup →
    (akeys (ops.foldl (BulkOp.applyIn db) c)).Nodup ∧ ∀ k ∈ akeys (ops.foldl (BulkOp.applyIn db) c), k ∈ akeys c ∨ k.1 = db
  | [], c, h => ⟨h, fun k hk => .inl hk⟩
  | op :: ops, c, h => by
    have key : (akeys (BulkOp.applyIn db c op)).Nodup ∧ ∀ k ∈ akeys (BulkOp.applyIn db c op), k ∈ akeys c ∨ k.1 = db := by
      cases op with
      | index ix i d => exact ⟨nodup_aset h, fun k hk => (mem_akeys_aset.1 hk).elim (fun e => .inr (by rw [e])) .inl⟩
      | delete ix i => exact ⟨nodup_aset h, fun k hk => (mem_akeys_aset.1 hk).elim (fun e => .inr (by rw [e])) .inl⟩
    obtain ⟨h1, h2⟩ := applyIn_keys ops _ key.1
    exact ⟨h1, fun k hk => (h2 k hk).elim (fun hk => key.2 k hk) .inr⟩

theorem deleteArcs_keys {db : PyStr} {c : Cluster P} (h : (akeys c).Nodup) :
    (akeys (c.deleteArcs db)).Nodup ∧ ∀ k ∈ akeys (c.deleteArcs db), k ∈ akeys c :=
  ⟨h.sublist (List.filter_sublist.map _), fun _ hk => (List.filter_sublist.map _).subset hk⟩

/-- What holds of such an Elasticsearch: only indices of the databases, each once, archives as in C40. -/
structure ClusterInv (maxDocs : Nat) (dbs : List PyStr) (c : Cluster P) : Prop where
  nodup : (akeys c).Nodup
  known : ∀ k ∈ akeys c, k.1 ∈ dbs
  filled : ∀ db ∈ dbs, ArcsFilled maxDocs (Cluster.of db c)

theorem separate_isolated {maxDocs : Nat} {dbs : List PyStr} (hn : SeparateNames dbs) {c : Cluster P}
    (h : ClusterInv maxDocs dbs c) {db : PyStr} (hdb : db ∈ dbs) : Isolated db c :=
  fun k hk hne => hn.apart db hdb k.1 (h.known k hk) hne

theorem clusterInv {X : Parser P} {maxDocs : Nat} (h1 : 1 ≤ maxDocs) {dbs : List PyStr} (hn : SeparateNames dbs) {c : Cluster P}
    (h : SyncedCluster X maxDocs dbs c) : ClusterInv maxDocs dbs c := by
  induction h with
  | none => exact ⟨by simp [akeys], by simp [akeys], fun db _ => ⟨by simp [Cluster.of, ES.arcs], by simp [Cluster.of, ES.arcs]⟩⟩
  | @sync c c' db resync m hc hdb hs ih =>
    have hiso := separate_isolated hn ih hdb
    obtain ⟨h2, h3⟩ := C46_sync_partial X maxDocs db resync m c (hn.star db hdb) hiso
    have hkeys : (akeys c').Nodup ∧ ∀ k ∈ akeys c', k ∈ akeys c ∨ k.1 = db := by
      unfold Cluster.sync at hs
      split at hs
      · cases hs; exact ⟨ih.nodup, fun k hk => .inl hk⟩
      · split at hs
        · cases hs
        · cases hs; exact ⟨ih.nodup, fun k hk => .inl hk⟩
        · dsimp only at hs
          split at hs
          · cases hs
          · split at hs
            · cases hs
            · cases hs
              cases resync with
              | false => exact applyIn_keys _ _ ih.nodup
              | true =>
                obtain ⟨h4, h5⟩ := deleteArcs_keys (db := db) ih.nodup
                obtain ⟨h6, h7⟩ := applyIn_keys (db := db) _ _ h4
                exact ⟨h6, fun k hk => (h7 k hk).imp (fun hk => h5 k hk) id⟩
    refine ⟨hkeys.1, fun k hk => (hkeys.2 k hk).elim (ih.known k) (fun e => e ▸ hdb), fun d hd => ?_⟩
    by_cases e : d = db
    · subst e
      rw [hs] at h2
      exact (ih.filled d hd).sync h1 h2.symm
    · rw [h3 c' hs d e]
      exact ih.filled d hd
  | @arcs c c' db m hc hdb hs ih =>
    have hiso := separate_isolated hn ih hdb
    obtain ⟨h2, h3⟩ := C46_resync_arcs_partial X maxDocs db m c (hn.star db hdb) hiso
    have hkeys : (akeys c').Nodup ∧ ∀ k ∈ akeys c', k ∈ akeys c ∨ k.1 = db := by
      unfold Cluster.resyncArcs at hs
      dsimp only at hs
      split at hs
      · cases hs
      · split at hs
        · cases hs
        · cases hs
          obtain ⟨h4, h5⟩ := deleteArcs_keys (db := db) ih.nodup
          obtain ⟨h6, h7⟩ := applyIn_keys (db := db) _ _ h4
          exact ⟨h6, fun k hk => (h7 k hk).imp (fun hk => h5 k hk) id⟩
    refine ⟨hkeys.1, fun k hk => (hkeys.2 k hk).elim (ih.known k) (fun e => e ▸ hdb), fun d hd => ?_⟩
    by_cases e : d = db
    · subst e
      rw [hs] at h2
      exact ArcsFilled.resyncArcs h1 h2.symm
    · rw [h3 c' hs d e]
      exact ih.filled d hd

/-- **C104** (what there is) after any number of syncs, resyncs and rebuilds of archives of several databases with separate names, in
any order: the list of a database is that of its latest index, if it was ever written to, and of its archives from 0 to some number
without a gap. All of these archives have documents. -/
theorem C104_history (X : Parser P) (maxDocs : Nat) (h1 : 1 ≤ maxDocs) (dbs : List PyStr) (hn : SeparateNames dbs) (c : Cluster P)
    (h : SyncedCluster X maxDocs dbs c) (db : PyStr) (hdb : db ∈ dbs) :
    ∃ n, (∀ name, name ∈ c.currentIndices db ↔
        (name = indexName db .latest ∧ (db, Ix.latest) ∈ akeys c) ∨ ∃ k < n, name = indexName db (.arc k)) ∧
      (∀ k < n, c.docs db (.arc k) ≠ []) ∧ (c.currentIndices db).Pairwise (· ≤ ·) ∧ (c.currentIndices db).Nodup := by
  have hi := clusterInv h1 hn h
  have hf := hi.filled db hdb
  have harc : ∀ k, k ∈ (Cluster.of db c).arcs ↔ Ix.arc k ∈ akeys (Cluster.of db c) := by
    intro k
    unfold ES.arcs akeys
    rw [List.mem_filterMap, List.mem_map]
    constructor
    · rintro ⟨x, hx, he⟩
      split at he
      · rename_i n hn
        cases he
        exact ⟨x, hx, hn⟩
      · cases he
    · rintro ⟨x, hx, he⟩
      exact ⟨x, hx, by rw [he]⟩
  have hex : ∃ n, ∀ k, k ∈ (Cluster.of db c).arcs ↔ k < n := by
    cases hmx : (Cluster.of db c).arcs.max? with
    | none =>
      rw [List.max?_eq_none_iff] at hmx
      exact ⟨0, by simp [hmx]⟩
    | some n =>
      rw [List.max?_eq_some_iff] at hmx
      refine ⟨n + 1, fun k => ⟨fun hk => Nat.lt_succ_of_le (hmx.2 k hk), fun hk => ?_⟩⟩
      rcases Nat.lt_succ_iff_lt_or_eq.1 hk with hk | rfl
      · exact (hf.full n hmx.1 k hk).1
      · exact hmx.1
  obtain ⟨n, hnn⟩ := hex
  refine ⟨n, fun name => ?_, fun k hk => ?_, C104_sorted db c hi.nodup⟩
  · rw [C104_own_partial db c (hn.star db hdb) (separate_isolated hn hi hdb)]
    constructor
    · rintro ⟨ix, hix, rfl⟩
      cases ix with
      | latest => exact .inl ⟨rfl, mem_akeys_of.1 hix⟩
      | arc k => exact .inr ⟨k, (hnn k).1 ((harc k).2 hix), rfl⟩
    · rintro (⟨rfl, hix⟩ | ⟨k, hk, rfl⟩)
      · exact ⟨_, mem_akeys_of.2 hix, rfl⟩
      · exact ⟨_, (harc k).1 ((hnn k).2 hk), rfl⟩
  · rw [Cluster.docs_of]
    have := (hf.bound k ((hnn k).2 hk)).1
    intro e
    rw [e] at this
    simp at this

/-- Two databases, the first of which is synced, with archives for one document each. -/
def exTwoSynced : Except PyErr (Cluster (Dict × ParsingOptions)) := Cluster.sync exParser 1 ['x'] false (exDbOf exCalls2) []

set_option maxRecDepth 100000 in
example : ∃ c, SyncedCluster exParser 1 [['x'], ['y']] c ∧
    c.currentIndices ['x'] = ["data-x-arc-0".toList, "data-x-arc-1".toList, "data-x-arc-2".toList, "data-x-latest".toList] ∧
    c.currentIndices ['y'] = [] := by
  have h : exTwoSynced.toOption.map (fun c => (c.currentIndices ['x'], c.currentIndices ['y'])) =
      some (["data-x-arc-0".toList, "data-x-arc-1".toList, "data-x-arc-2".toList, "data-x-latest".toList], []) := by decide +kernel
  cases e : exTwoSynced with
  | error e' => rw [e] at h; cases h
  | ok c =>
    rw [e] at h
    injection h with h
    exact ⟨c, .sync .none (by decide) e, congrArg Prod.fst h, congrArg Prod.snd h⟩

/-- Their names are separate. -/
example : SeparateNames [['x'], ['y']] := by
  refine ⟨by decide, fun db hdb d hd hne => ?_⟩
  simp only [List.mem_cons, List.not_mem_nil, or_false] at hdb hd
  rcases hdb with rfl | rfl <;> rcases hd with rfl | rfl <;> first | exact absurd rfl hne | decide

/-- The order is alphabetical: archive 10 comes before archive 2. -/
example : indexName ['x'] (.arc 10) ≤ indexName ['x'] (.arc 2) := by
  rw [← strLe_iff]; decide +kernel

end Splitgill.Props
