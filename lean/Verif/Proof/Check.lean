import Verif.Proof.Sync4
/-!
# Lemmas: checking the conditions on concrete databases
-/

namespace Splitgill

/-- A check of `DbOk`. -/
def dbOkB (db : PyStr) (m : Mongo) : Bool :=
  decide ((m.data db).map MongoRecord.id).Nodup &&
  (m.data db).all (fun r => match r.iter with
    | .error _ => false
    | .ok items =>
      (match r.version with
        | none => true
        | some v => decide (items = (committedOf items).map (fun vd => (some vd.1, vd.2))) &&
          decide ((committedOf items).head?.map Prod.fst = some v)) &&
      decide (((committedOf items).map Prod.fst).Pairwise (· > ·)) &&
      (match (committedOf items).getLast? with | none => true | some vd => !vd.2.isEmpty)) &&
  !(committedOptionsOf db m).isEmpty && decide ((committedOptionsOf db m).map Prod.fst).Nodup

theorem dbOk_of_check {db : PyStr} {m : Mongo} (h : dbOkB db m = true) : DbOk db m := by
  simp only [dbOkB, Bool.and_eq_true, decide_eq_true_eq, List.all_eq_true, Bool.not_eq_true', List.isEmpty_eq_false_iff] at h
  obtain ⟨⟨⟨h1, h2⟩, h3⟩, h4⟩ := h
  have key : ∀ r ∈ m.data db, ∃ items, r.iter = .ok items ∧ histOf (m.data db) r.id = committedOf items ∧
      (∀ v, r.version = some v → items = (committedOf items).map (fun vd => (some vd.1, vd.2)) ∧
        ∃ d, (committedOf items).head? = some (v, d)) ∧ ((committedOf items).map Prod.fst).Pairwise (· > ·) ∧
      ∀ v d, (committedOf items).getLast? = some (v, d) → d ≠ [] := by
    intro r hr
    have := h2 r hr
    cases hi : r.iter with
    | error e => rw [hi] at this; cases this
    | ok items =>
      rw [hi] at this
      simp only [Bool.and_eq_true, decide_eq_true_eq] at this
      obtain ⟨⟨h5, h6⟩, h7⟩ := this
      refine ⟨items, rfl, by simp only [histOf, history, findRecord_of_mem (c := m.data db) h1 hr, hi], ?_, h6, ?_⟩
      · intro v hv
        rw [hv] at h5
        simp only [Bool.and_eq_true, decide_eq_true_eq] at h5
        refine ⟨h5.1, ?_⟩
        cases hh : (committedOf items).head? with
        | none => rw [hh] at h5; exact absurd h5.2 (by simp)
        | some x =>
          rw [hh] at h5
          simp only [Option.map_some, Option.some.injEq] at h5
          exact ⟨x.2, by rw [← h5.2]⟩
      · intro v d hd
        rw [hd] at h7
        simpa using h7
  refine ⟨h1, fun r hr => ?_, fun id => ?_, fun id v d hd => ?_, h3, h4⟩
  · obtain ⟨items, a, _, b, _⟩ := key r hr
    exact ⟨items, a, b⟩
  · by_cases hid : id ∈ (m.data db).map MongoRecord.id
    · obtain ⟨r, hr, rfl⟩ := List.mem_map.1 hid
      obtain ⟨items, _, a, _, b, _⟩ := key r hr
      rw [a]; exact b
    · rw [hist_none hid]; simp
  · by_cases hid : id ∈ (m.data db).map MongoRecord.id
    · obtain ⟨r, hr, rfl⟩ := List.mem_map.1 hid
      obtain ⟨items, _, a, _, _, b⟩ := key r hr
      rw [a] at hd; exact b v d hd
    · rw [hist_none hid] at hd; cases hd

/-- A check of `Later`, for all parsers. -/
def laterB (db : PyStr) (t : Int) (m m' : Mongo) : Bool :=
  ((m.data db).map MongoRecord.id ++ (m'.data db).map MongoRecord.id).all (fun id =>
    decide (histOf (m.data db) id = (histOf (m'.data db) id).filter (fun vd => decide (vd.1 ≤ t)))) &&
  decide (committedOptionsOf db m = (committedOptionsOf db m').filter (fun vd => decide (vd.1 ≤ t)))

theorem later_of_check {P : Type} (X : Parser P) {db : PyStr} {t : Int} {m m' : Mongo} (h : laterB db t m m' = true) :
    Later X db t m m' := by
  simp only [laterB, Bool.and_eq_true, decide_eq_true_eq, List.all_eq_true] at h
  constructor
  · intro id
    have : histOf (m.data db) id = (histOf (m'.data db) id).filter (fun vd => decide (vd.1 ≤ t)) := by
      by_cases hid : id ∈ (m.data db).map MongoRecord.id ++ (m'.data db).map MongoRecord.id
      · exact h.1 id hid
      · simp only [List.mem_append, not_or] at hid
        rw [hist_none hid.1, hist_none hid.2]; rfl
    rw [← this]
    generalize histOf (m.data db) id = l
    induction l with
    | nil => exact .nil
    | cons x l ih => exact .cons ⟨rfl, fun _ => rfl, Iff.rfl⟩ ih
  · intro v o
    rw [h.2, List.mem_filter, decide_eq_true_eq]

end Splitgill

namespace Splitgill

/-- A check of `Alive`. -/
def aliveB (hist : List (Int × Dict)) (v : Int) : Bool :=
  match hist.find? (fun x => decide (x.1 ≤ v)) with
  | none => false
  | some (_, d) => !d.isEmpty

theorem aliveB_iff {hist : List (Int × Dict)} (h : (hist.map Prod.fst).Pairwise (· > ·)) (v : Int) :
    aliveB hist v = true ↔ Alive hist v := by
  induction hist with
  | nil => simp [aliveB, Alive, AsOf]
  | cons x rest ih =>
    obtain ⟨w, d⟩ := x
    have hp := List.pairwise_cons.1 (by simpa using h : (w :: rest.map Prod.fst).Pairwise (· > ·))
    have ih := ih hp.2
    by_cases hw : w ≤ v
    · have : aliveB ((w, d) :: rest) v = !d.isEmpty := by simp [aliveB, hw]
      rw [this]
      have hlt : ∀ w' d', (w', d') ∈ rest → w' < w := fun w' d' hm => hp.1 w' (List.mem_map_of_mem hm)
      constructor
      · intro hd
        refine ⟨d, ⟨w, by simp, hw, ?_⟩, by simpa using hd⟩
        intro w' d' hm _
        rcases List.mem_cons.1 hm with hm | hm
        · cases hm; omega
        · have := hlt w' d' hm; omega
      · rintro ⟨a, ⟨w', hm, hw', hmax⟩, ha⟩
        have := hmax w d (by simp) hw
        rcases List.mem_cons.1 hm with hm | hm
        · cases hm; simpa using ha
        · have := hlt w' a hm; omega
    · have : aliveB ((w, d) :: rest) v = aliveB rest v := by simp [aliveB, hw]
      rw [this, ih]
      unfold Alive AsOf
      constructor
      · rintro ⟨a, ⟨w', hm, hw', hmax⟩, ha⟩
        refine ⟨a, ⟨w', List.mem_cons_of_mem _ hm, hw', ?_⟩, ha⟩
        intro w'' d'' hm' hw''
        rcases List.mem_cons.1 hm' with hm' | hm'
        · cases hm'; omega
        · exact hmax w'' d'' hm' hw''
      · rintro ⟨a, ⟨w', hm, hw', hmax⟩, ha⟩
        rcases List.mem_cons.1 hm with hm | hm
        · cases hm; omega
        · exact ⟨a, ⟨w', hm, hw', fun w'' d'' hm' hw'' => hmax w'' d'' (List.mem_cons_of_mem _ hm') hw''⟩, ha⟩

/-- A check of `NoUpdateDelete`. -/
def noUpdateDeleteB (db : PyStr) (t : Int) (m : Mongo) : Bool :=
  ((m.data db).map MongoRecord.id).all (fun id =>
    let h := histOf (m.data db) id
    !(aliveB h t && (match h.head? with | some (_, []) => true | _ => false)) ||
      (h.map Prod.fst ++ (committedOptionsOf db m).map Prod.fst).all (fun v => !(decide (t < v) && aliveB h v)))

theorem noUpdateDelete_of_check {db : PyStr} {t : Int} {m : Mongo} (hm : DbOk db m) (h : noUpdateDeleteB db t m = true) :
    NoUpdateDelete db t m := by
  intro id ha hd v htv hv hal
  have hne : histOf (m.data db) id ≠ [] := by
    intro he; obtain ⟨w, hw⟩ := hd; rw [he] at hw; cases hw
  simp only [noUpdateDeleteB, List.all_eq_true] at h
  have := h id (mem_ids_of_hist hne)
  rw [(aliveB_iff (hm.desc id) t).2 ha] at this
  obtain ⟨w, hw⟩ := hd
  rw [hw] at this
  simp only [Bool.and_self, Bool.not_true, Bool.false_or, List.all_eq_true] at this
  have := this v (List.mem_append.2 hv)
  rw [(aliveB_iff (hm.desc id) v).2 hal] at this
  simp [htv] at this

end Splitgill

namespace Splitgill

/-- A check of `SameCommitted`, for all parsers. -/
def sameCommittedB (db : PyStr) (m m' : Mongo) : Bool :=
  ((m.data db).map MongoRecord.id ++ (m'.data db).map MongoRecord.id).all (fun id =>
    decide (histOf (m.data db) id = histOf (m'.data db) id)) &&
  decide (committedOptionsOf db m' = committedOptionsOf db m)

theorem sameCommitted_of_check {P : Type} (X : Parser P) {db : PyStr} {m m' : Mongo}
    (h : sameCommittedB db m m' = true) : SameCommitted X db m m' := by
  simp only [sameCommittedB, Bool.and_eq_true, decide_eq_true_eq, List.all_eq_true] at h
  refine ⟨fun id => ?_, fun v o => by rw [h.2]⟩
  have : histOf (m.data db) id = histOf (m'.data db) id := by
    by_cases hid : id ∈ (m.data db).map MongoRecord.id ++ (m'.data db).map MongoRecord.id
    · exact h.1 id hid
    · simp only [List.mem_append, not_or] at hid
      rw [hist_none hid.1, hist_none hid.2]
  rw [← this]
  generalize histOf (m.data db) id = l
  induction l with
  | nil => exact .nil
  | cons x l ih => exact .cons ⟨rfl, fun _ => rfl, Iff.rfl⟩ ih

/-- A check of `PendingOld`. -/
def pendingOldB (db : PyStr) (t : Int) (m : Mongo) : Bool :=
  (m.data db).all (fun r => r.version.isSome || (histOf (m.data db) r.id).isEmpty ||
    (((histOf (m.data db) r.id).map Prod.fst).all (fun w => decide (w ≤ t)) &&
      ((committedOptionsOf db m).map Prod.fst).all (fun w => decide (w ≤ t))))

theorem pendingOld_of_check {db : PyStr} {t : Int} {m : Mongo} (h : pendingOldB db t m = true) :
    PendingOld db (some t) m := by
  intro r hr hv hne
  simp only [pendingOldB, List.all_eq_true] at h
  have := h r hr
  rw [hv] at this
  simp only [Option.isSome_none, Bool.false_or, Bool.or_eq_true, List.isEmpty_iff, Bool.and_eq_true,
    List.all_eq_true, decide_eq_true_eq] at this
  rcases this with h | h
  · exact absurd h hne
  · exact ⟨t, rfl, h.1, h.2⟩

end Splitgill
