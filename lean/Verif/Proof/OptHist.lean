import Verif.Spec.OptHist
import Verif.Proof.Crash
import Verif.Proof.Options
import Mathlib.Data.List.Nodup
/-!
# The options collection of a database that is written through the API
-/

namespace Splitgill

theorem fromDoc_toDoc {o : ParsingOptions} (h : OptionsOk o) : ParsingOptions.fromDoc o.toDoc = o := by
  obtain ⟨h1, h2, h3, h4⟩ := h
  have e : (o.toDoc.geoHints.map (fun p => (⟨p.1, p.2.1, p.2.2.1, p.2.2.2⟩ : GeoFieldHint))) = o.geoHints := by
    simp [ParsingOptions.toDoc, List.map_map, Function.comp_def]
  unfold ParsingOptions.fromDoc
  rw [e, setOf_hint h4]
  simp only [ParsingOptions.toDoc]
  rw [setOf_str h1, setOf_str h2, setOf_str h3]

/-- The document of committed options. -/
def committedDoc (db : PyStr) (x : Int × ParsingOptions) : OptDoc := ⟨db, some x.1, x.2.toDoc⟩
/-- The document of uncommitted options. -/
def pendingDoc (db : PyStr) (o : ParsingOptions) : OptDoc := ⟨db, none, o.toDoc⟩

/-- The options collection of a history. -/
def OptHist.docs (db : PyStr) (h : OptHist) : List OptDoc :=
  h.committed.map (committedDoc db) ++ h.pending.toList.map (pendingDoc db)

structure OptHist.Ok (hi : Option Int) (h : OptHist) : Prop where
  committed : ∀ x ∈ h.committed, OptionsOk x.2
  pending : ∀ o, h.pending = some o → OptionsOk o
  sorted : (h.committed.map Prod.fst).Pairwise (· < ·)
  below : ∀ x ∈ h.committed, Below hi x.1

theorem foldl_aset_new {α : Type} (f : OptDoc → α) : ∀ (l : List OptDoc) (acc : List (Option Int × α)),
    (l.map OptDoc.version).Nodup → (∀ d ∈ l, d.version ∉ akeys acc) →
    l.foldl (fun acc d => aset d.version (f d) acc) acc = acc ++ l.map (fun d => (d.version, f d))
  | [], acc, _, _ => by simp
  | d :: l, acc, hn, hk => by
    rw [List.map_cons, List.nodup_cons] at hn
    have e : aset d.version (f d) acc = acc ++ [(d.version, f d)] := by
      have := hk d (by simp)
      clear hn hk
      induction acc with
      | nil => rfl
      | cons x acc ih =>
        simp only [akeys, List.map_cons, List.mem_cons, not_or] at this
        obtain ⟨k, v⟩ := x
        simp only [aset]
        rw [if_neg (fun e => this.1 (by first | exact e.symm | exact e)), ih this.2]
        rfl
    rw [List.foldl_cons, e, foldl_aset_new f l _ hn.2]
    · simp
    · intro d' hd'
      simp only [akeys, List.map_append, List.map_cons, List.map_nil, List.mem_append, List.mem_singleton, not_or]
      refine ⟨hk d' (by simp [hd']), fun he => hn.1 ?_⟩
      rw [← he]; exact List.mem_map_of_mem hd'

section
variable {db : PyStr} {hi : Option Int} {h : OptHist} {m : Mongo}

theorem OptHist.docs_committed : (h.docs db).filter (fun d => decide (d.name = db) && (false || d.version.isSome)) =
    h.committed.map (committedDoc db) := by
  unfold OptHist.docs
  rw [List.filter_append]
  have e1 : (h.committed.map (committedDoc db)).filter (fun d => decide (d.name = db) && (false || d.version.isSome)) =
      h.committed.map (committedDoc db) := by
    rw [List.filter_eq_self]
    intro d hd
    obtain ⟨x, _, rfl⟩ := List.mem_map.1 hd
    simp [committedDoc]
  have e2 : (h.pending.toList.map (pendingDoc db)).filter (fun d => decide (d.name = db) && (false || d.version.isSome)) = [] := by
    rw [List.filter_eq_nil_iff]
    intro d hd
    obtain ⟨x, _, rfl⟩ := List.mem_map.1 hd
    simp [pendingDoc]
  rw [e1, e2, List.append_nil]

theorem OptHist.Ok.nodup (hk : h.Ok hi) : ((h.committed.map (committedDoc db)).map OptDoc.version).Nodup := by
  rw [List.map_map]
  have : (h.committed.map (OptDoc.version ∘ committedDoc db)) = (h.committed.map Prod.fst).map some := by
    rw [List.map_map]; rfl
  rw [this]
  exact List.Nodup.map (fun a b h => Option.some.inj h) (hk.sorted.imp (fun h => by omega))

theorem getOptions_docs (hk : h.Ok hi) (hm : m.options = h.docs db) :
    getOptions db false m = h.committed.map (fun x => (some x.1, x.2)) := by
  unfold getOptions
  rw [hm, OptHist.docs_committed, foldl_aset_new _ _ _ hk.nodup (by simp [akeys]), List.nil_append, List.map_map]
  apply List.map_congr_left
  intro x hx
  simp only [Function.comp, committedDoc]
  rw [fromDoc_toDoc (hk.committed x hx)]

theorem getOptions_docs_all (hk : h.Ok hi) (hm : m.options = h.docs db) :
    getOptions db true m = h.committed.map (fun x => (some x.1, x.2)) ++ h.pending.toList.map (fun o => (none, o)) := by
  have e : (h.docs db).filter (fun d => decide (d.name = db) && (true || d.version.isSome)) = h.docs db := by
    rw [List.filter_eq_self]
    intro d hd
    rcases List.mem_append.1 hd with hd | hd <;> obtain ⟨x, _, rfl⟩ := List.mem_map.1 hd <;>
      simp [committedDoc, pendingDoc]
  unfold getOptions
  rw [hm, e, foldl_aset_new _ _ _ ?_ (by simp [akeys])]
  · simp only [OptHist.docs, List.nil_append, List.map_append, List.map_map]
    congr 1
    · apply List.map_congr_left
      intro x hx
      simp only [Function.comp, committedDoc]
      rw [fromDoc_toDoc (hk.committed x hx)]
    · apply List.map_congr_left
      intro x hx
      simp only [Function.comp, pendingDoc]
      rw [fromDoc_toDoc (hk.pending x (by simpa using hx))]
  · unfold OptHist.docs
    rw [List.map_append]
    refine List.nodup_append.2 ⟨hk.nodup, ?_, ?_⟩
    · cases h.pending <;> simp
    · rintro v h1 _ h2 rfl
      simp only [List.map_map, List.mem_map, Function.comp, committedDoc, pendingDoc] at h1 h2
      obtain ⟨_, _, rfl⟩ := h1
      obtain ⟨_, _, h2⟩ := h2
      cases h2

theorem latestOptions_docs (hk : h.Ok hi) (hm : m.options = h.docs db) :
    latestOptions db m = h.committed.getLast?.map Prod.snd := by
  cases hc : h.committed.getLast? with
  | none =>
    have h0 : h.committed = [] := List.getLast?_eq_none_iff.1 hc
    have := getOptions_docs hk hm
    rw [h0] at this
    simp [latestOptions, this]
  | some x =>
    obtain ⟨l, hl⟩ := List.getLast?_eq_some_iff.1 hc
    have hx : x ∈ h.committed := by rw [hl]; simp
    have e : committedOptions db m.options = l.map (committedDoc db) ++ [committedDoc db x] := by
      have := OptHist.docs_committed (db := db) (h := h)
      simp only [Bool.false_or] at this
      rw [committedOptions, hm, this, hl, List.map_append]
      rfl
    rw [latestOptions_last (v := x.1) e rfl]
    · simp only [committedDoc, Option.map_some]
      rw [fromDoc_toDoc (hk.committed x hx)]
    · intro d hd v hv
      obtain ⟨y, hy, rfl⟩ := List.mem_map.1 hd
      have hs := hk.sorted
      rw [hl, List.map_append, List.pairwise_append] at hs
      have := hs.2.2 y.1 (List.mem_map_of_mem hy) x.1 (by simp)
      simp only [committedDoc, Option.some.injEq] at hv
      omega

theorem hasUncommitted_docs (hm : m.options = h.docs db) : hasUncommittedOptions m = h.pending.isSome := by
  unfold hasUncommittedOptions
  rw [hm, OptHist.docs, List.any_append]
  have : (h.committed.map (committedDoc db)).any (fun d => d.version.isNone) = false := by
    rw [List.any_eq_false]
    intro d hd
    obtain ⟨x, _, rfl⟩ := List.mem_map.1 hd
    simp [committedDoc]
  rw [this]
  cases h.pending <;> simp [pendingDoc]

theorem hasOptions_docs (hm : m.options = h.docs db) : hasOptions m = !h.committed.isEmpty := by
  unfold hasOptions
  rw [hm, OptHist.docs, List.any_append]
  have : (h.pending.toList.map (pendingDoc db)).any (fun d => d.version.isSome) = false := by
    rw [List.any_eq_false]
    intro d hd
    obtain ⟨x, _, rfl⟩ := List.mem_map.1 hd
    simp [pendingDoc]
  rw [this]
  cases h.committed <;> simp [committedDoc]

theorem rollback_docs : (h.docs db).filter (fun d => d.version.isSome) = h.rollback.docs db := by
  unfold OptHist.docs OptHist.rollback
  rw [List.filter_append]
  have e1 : (h.committed.map (committedDoc db)).filter (fun d => d.version.isSome) = h.committed.map (committedDoc db) := by
    rw [List.filter_eq_self]
    intro d hd
    obtain ⟨x, _, rfl⟩ := List.mem_map.1 hd
    simp [committedDoc]
  have e2 : (h.pending.toList.map (pendingDoc db)).filter (fun d => d.version.isSome) = [] := by
    rw [List.filter_eq_nil_iff]
    intro d hd
    obtain ⟨x, _, rfl⟩ := List.mem_map.1 hd
    simp [pendingDoc]
  rw [e1, e2]
  rfl

theorem update_docs (hk : h.Ok hi) (hm : m.options = h.docs db) (o : ParsingOptions) :
    (updateOptionsNoCommit db o m).options = (h.update o).docs db ∧
    (sameAsLatest (latestOptions db m) o = true → h.update o = h.rollback) ∧
    (sameAsLatest (latestOptions db m) o = false → h.update o = { h with pending := some o }) := by
  have hl := latestOptions_docs hk hm
  have hr : (if hasUncommittedOptions m then rollbackOptions m else m).options = h.rollback.docs db := by
    rw [hasUncommitted_docs hm]
    cases hp : h.pending with
    | none =>
      simp only [Option.isSome_none, Bool.false_eq_true, if_false]
      rw [hm]
      unfold OptHist.docs OptHist.rollback
      rw [hp]
    | some x =>
      simp only [Option.isSome_some, if_true, rollbackOptions]
      rw [hm, rollback_docs]
  have hu : sameAsLatest (latestOptions db m) o = true ∧ h.update o = h.rollback ∨
      sameAsLatest (latestOptions db m) o = false ∧ h.update o = { h with pending := some o } := by
    rw [hl]
    unfold OptHist.update OptHist.rollback
    cases h.committed.getLast? with
    | none => exact .inr ⟨rfl, rfl⟩
    | some x =>
      simp only [Option.map_some, sameAsLatest]
      cases x.2.pyEq o
      · exact .inr ⟨rfl, rfl⟩
      · exact .inl ⟨rfl, rfl⟩
  refine ⟨?_, fun hs => ?_, fun hs => ?_⟩
  · unfold updateOptionsNoCommit
    dsimp only
    rcases hu with ⟨h1, h2⟩ | ⟨h1, h2⟩
    · rw [h1, h2, if_pos rfl, hr]
    · rw [h1, h2, if_neg (by simp)]
      simp only [insertOptions]
      rw [hr]
      simp [OptHist.docs, OptHist.rollback, pendingDoc]
  · rcases hu with ⟨h1, h2⟩ | ⟨h1, h2⟩
    · exact h2
    · rw [hs] at h1; cases h1
  · rcases hu with ⟨h1, h2⟩ | ⟨h1, h2⟩
    · rw [hs] at h1; cases h1
    · exact h2

theorem give_docs (v : Int) : commitOptions v (h.docs db) = (h.give v).docs db := by
  have e1 : commitOptions v (h.committed.map (committedDoc db)) = h.committed.map (committedDoc db) :=
    commitOptions_none (by
      rw [List.any_eq_false]
      intro d hd
      obtain ⟨x, _, rfl⟩ := List.mem_map.1 hd
      simp [committedDoc])
  have e2 : commitOptions v (h.docs db) = commitOptions v (h.committed.map (committedDoc db)) ++
      commitOptions v (h.pending.toList.map (pendingDoc db)) := by
    unfold commitOptions OptHist.docs; rw [List.map_append]
  rw [e2, e1]
  unfold OptHist.give OptHist.docs
  cases hp : h.pending with
  | none => simp [commitOptions, hp]
  | some o => simp [commitOptions, pendingDoc, committedDoc]

theorem default_start : defaultOptions = startOptions := rfl

theorem withDefaults_docs (hm : m.options = h.docs db) : withDefaults db m = h.orDefault.docs db := by
  unfold withDefaults
  rw [hasOptions_docs hm, hasUncommitted_docs hm, hm]
  unfold OptHist.orDefault
  obtain ⟨c, p⟩ := h
  cases c with
  | nil =>
    cases p with
    | none => simp [OptHist.docs, pendingDoc, default_start]
    | some o => simp
  | cons x c => simp

/-! ## The invariant of the histories -/

theorem defaultOptions_ok : OptionsOk defaultOptions := ⟨by decide, by decide, by decide, by decide⟩

theorem OptHist.Ok.rollback (hk : h.Ok hi) : h.rollback.Ok hi := ⟨hk.committed, by simp [OptHist.rollback], hk.sorted, hk.below⟩

theorem OptHist.Ok.setPending (hk : h.Ok hi) {o : ParsingOptions} (ho : OptionsOk o) : (OptHist.mk h.committed (some o)).Ok hi :=
  ⟨hk.committed, by simpa using ho, hk.sorted, hk.below⟩

theorem OptHist.Ok.update (hk : h.Ok hi) {o : ParsingOptions} (ho : OptionsOk o) : (h.update o).Ok hi := by
  unfold OptHist.update
  split
  · split
    · exact hk.rollback
    · exact hk.setPending ho
  · exact hk.setPending ho

theorem OptHist.Ok.orDefault (hk : h.Ok hi) : h.orDefault.Ok hi := by
  unfold OptHist.orDefault
  split
  · exact ⟨by simp, by simpa [default_start] using defaultOptions_ok, .nil, by simp⟩
  · exact hk

theorem OptHist.Ok.later (hk : h.Ok hi) {v : Int} (hv : gtAfter hi v = true) : h.Ok (some v) :=
  ⟨hk.committed, hk.pending, hk.sorted, fun x hx => ⟨v, rfl, Int.le_of_lt ((hk.below x hx).lt hv)⟩⟩

theorem OptHist.Ok.give (hk : h.Ok hi) {v : Int} (hv : gtAfter hi v = true) : (h.give v).Ok (some v) := by
  unfold OptHist.give
  cases hp : h.pending with
  | none => exact hk.later hv
  | some o =>
    refine ⟨fun x hx => ?_, by simp, ?_, fun x hx => ?_⟩
    · rcases List.mem_append.1 hx with hx | hx
      · exact hk.committed x hx
      · rw [List.mem_singleton] at hx; subst hx; exact hk.pending o hp
    · simp only [List.map_append, List.map_cons, List.map_nil]
      refine List.pairwise_append.2 ⟨hk.sorted, List.pairwise_singleton _ _, fun a ha b hb => ?_⟩
      obtain ⟨x, hx, rfl⟩ := List.mem_map.1 ha
      rw [List.mem_singleton] at hb; subst hb
      exact (hk.below x hx).lt hv
    · rcases List.mem_append.1 hx with hx | hx
      · exact ⟨v, rfl, Int.le_of_lt ((hk.below x hx).lt hv)⟩
      · rw [List.mem_singleton] at hx; subst hx; exact ⟨v, rfl, Int.le_refl _⟩

theorem OptHist.Ok.commit (hk : h.Ok hi) {v : Int} (hv : gtAfter hi v = true) : (h.commit v).Ok (some v) := hk.orDefault.give hv

/-! ## Calls -/

theorem commit_docs (clock : Int) (hm : m.options = h.docs db) :
    ∃ ret, (ret = none ∨ ret = some clock) ∧ ((commit db clock m).1 = .ok ret ∨ ((∃ e, (commit db clock m).1 = .error e) ∧ ret = none)) ∧
      (commit db clock m).2.options = (match ret with | some v => h.commit v | none => h).docs db := by
  by_cases hl : db ∈ m.locks
  · rw [commit_locked hl]
    exact ⟨none, .inl rfl, .inr ⟨⟨_, rfl⟩, rfl⟩, hm⟩
  · rw [commit_eq hl]
    split
    · refine ⟨some clock, .inr rfl, .inl rfl, ?_⟩
      simp only
      rw [withDefaults_docs hm, give_docs]
      rfl
    · exact ⟨none, .inl rfl, .inl rfl, hm⟩

/-- What a call does. -/
theorem call_docs (U : Unicode) (hk : h.Ok hi) (hm : m.options = h.docs db) (c : ApiCall)
    (hc : ∀ t, c.clock? = some t → gtAfter hi t = true) (ho : ∀ o, c.options? = some o → OptionsOk o) :
    ∃ ret, ((c.run U db m).1 = .ok ret ∨ ((∃ e, (c.run U db m).1 = .error e) ∧ ret = none)) ∧
      (c.run U db m).2.options = (c.optEffect ret h).docs db ∧ (c.optEffect ret h).Ok (c.clock?.or hi) := by
  have okr : ∀ {h' : OptHist} {clock : Int} {ret : Option Int}, h'.Ok hi → gtAfter hi clock = true → (ret = none ∨ ret = some clock) →
      (match ret with | some v => h'.commit v | none => h').Ok (some clock) := by
    intro h' clock ret hk' hgt hr
    rcases hr with rfl | rfl
    · exact hk'.later hgt
    · exact hk'.commit hgt
  cases c with
  | ingest mf rs doCommit clock =>
    simp only [ApiCall.run]
    cases hi' : Splitgill.ingest U mf (m.data db) rs with
    | error e =>
      refine ⟨none, .inr ⟨⟨_, rfl⟩, rfl⟩, hm, ?_⟩
      cases doCommit
      · exact hk
      · exact hk.later (hc clock rfl)
    | ok c =>
      simp only
      cases doCommit with
      | false => exact ⟨none, .inl rfl, hm, hk⟩
      | true =>
        obtain ⟨ret, h1, h2, h3⟩ := commit_docs (db := db) (h := h) (m := m.setData db c) clock hm
        exact ⟨ret, h2, h3, okr hk (hc clock rfl) h1⟩
  | commit clock =>
    obtain ⟨ret, h1, h2, h3⟩ := commit_docs (db := db) clock hm
    exact ⟨ret, h2, h3, okr hk (hc clock rfl) h1⟩
  | updateOptions o doCommit clock =>
    have hok := hk.update (ho o rfl)
    obtain ⟨u1, u2, u3⟩ := update_docs hk hm o
    simp only [ApiCall.run, updateOptions]
    split
    · refine ⟨none, .inl rfl, u1, ?_⟩
      cases doCommit
      · exact hok
      · exact hok.later (hc clock rfl)
    · cases doCommit with
      | false => exact ⟨none, .inl rfl, u1, hok⟩
      | true =>
        obtain ⟨ret, h1, h2, h3⟩ := commit_docs (db := db) clock u1
        exact ⟨ret, h2, h3, okr hok (hc clock rfl) h1⟩
  | rollbackOptions =>
    refine ⟨none, .inl rfl, ?_, hk.rollback⟩
    simp only [ApiCall.run, rollbackOptions, hm]
    exact rollback_docs
  | rollbackRecords =>
    simp only [ApiCall.run]
    cases hr : Splitgill.rollbackRecords (m.data db) with
    | error e => exact ⟨none, .inr ⟨⟨_, rfl⟩, rfl⟩, hm, hk⟩
    | ok c => exact ⟨none, .inl rfl, hm, hk⟩

end

theorem optionsFrom_docs (U : Unicode) (db : PyStr) : ∀ (calls : List ApiCall) {m : Mongo} {h : OptHist} {hi : Option Int}, h.Ok hi →
    m.options = h.docs db → (∀ t ∈ calls.filterMap ApiCall.clock?, gtAfter hi t = true) →
    (calls.filterMap ApiCall.clock?).Pairwise (· < ·) → (∀ o ∈ calls.filterMap ApiCall.options?, OptionsOk o) →
    ∃ hi', (optionsFrom U db m h calls).Ok hi' ∧
      (runCalls U m (calls.map (fun c => (db, c)))).options = (optionsFrom U db m h calls).docs db
  | [], m, h, hi, hk, hm, _, _, _ => ⟨hi, hk, hm⟩
  | c :: calls, m, h, hi, hk, hm, hc, hp, ho => by
    obtain ⟨ret, h1, h2, h3⟩ := call_docs U hk hm c (fun t ht => hc t (by simp [List.filterMap_cons, ht]))
      (fun o h => ho o (by simp [List.filterMap_cons, h]))
    have hgt : ∀ t ∈ calls.filterMap ApiCall.clock?, gtAfter (c.clock?.or hi) t = true := by
      intro t ht
      cases hk : c.clock? with
      | none => exact hc t (by simp [List.filterMap_cons, hk, ht])
      | some v =>
        rw [List.filterMap_cons, hk] at hp
        have := (List.pairwise_cons.1 hp).1 t ht
        simp [gtAfter, this]
    have hp' : (calls.filterMap ApiCall.clock?).Pairwise (· < ·) := by
      rw [List.filterMap_cons] at hp
      cases hk : c.clock? with
      | none => rwa [hk] at hp
      | some v => rw [hk] at hp; exact (List.pairwise_cons.1 hp).2
    have ho' : ∀ o ∈ calls.filterMap ApiCall.options?, OptionsOk o := by
      intro o hm
      refine ho o ?_
      rw [List.filterMap_cons]
      cases c.options? with
      | none => exact hm
      | some x => exact List.mem_cons_of_mem _ hm
    have e : optionsFrom U db m h (c :: calls) = optionsFrom U db (c.run U db m).2 (c.optEffect ret h) calls := by
      rw [optionsFrom]
      rcases hr : c.run U db m with ⟨r, m'⟩
      rw [hr] at h1
      rcases h1 with h1 | ⟨⟨e, h1⟩, rfl⟩
      · simp only at h1; subst h1; rfl
      · simp only at h1; subst h1; rfl
    rw [e]
    exact optionsFrom_docs U db calls h3 h2 hgt hp' ho'

theorem OptHist.empty_ok : OptHist.empty.Ok none := ⟨by simp [OptHist.empty], by simp [OptHist.empty], .nil, by simp [OptHist.empty]⟩

theorem gtAfter_none (t : Int) : gtAfter none t = true := rfl

/-! ## Stopped calls -/

theorem optPart_docs {db : PyStr} {v : Int} {h : OptHist} {os : List OptDoc} (hp : OptPart [v] (h.docs db) os) :
    os = h.docs db ∨ os = (h.give v).docs db := by
  unfold OptHist.docs at hp
  obtain ⟨os1, os2, h1, h2, rfl⟩ : ∃ l1 l2, OptPart [v] (h.committed.map (committedDoc db)) l1 ∧
      OptPart [v] (h.pending.toList.map (pendingDoc db)) l2 ∧ os = l1 ++ l2 := by
    generalize h.committed.map (committedDoc db) = a at hp
    induction a generalizing os with
    | nil => exact ⟨[], os, .nil, hp, rfl⟩
    | cons x a ih =>
      cases hp with
      | cons hx hr =>
        obtain ⟨l1, l2, g1, g2, rfl⟩ := ih hr
        exact ⟨_ :: l1, l2, .cons hx g1, g2, rfl⟩
  have e1 : os1 = h.committed.map (committedDoc db) := by
    clear h2 hp
    generalize h.committed = c at h1
    induction c generalizing os1 with
    | nil => cases h1; rfl
    | cons x c ih =>
      cases h1 with
      | cons hx hr =>
        rw [ih _ hr, List.map_cons]
        congr 1
        rcases hx with hx | ⟨_, hx⟩ | ⟨hx, _⟩
        · exact hx
        · exact hx
        · simp [committedDoc] at hx
  subst e1
  cases hpd : h.pending with
  | none =>
    rw [hpd] at h2
    cases h2
    left
    simp [OptHist.docs, hpd]
  | some o =>
    rw [hpd] at h2
    cases h2 with
    | cons hx hr =>
      cases hr
      rcases hx with hx | ⟨_, hx⟩ | ⟨_, w, hw, hx⟩
      · left; subst hx; simp [OptHist.docs, hpd]
      · left; subst hx; simp [OptHist.docs, hpd]
      · right
        rw [List.mem_singleton] at hw
        subst hw hx
        simp [OptHist.docs, OptHist.give, hpd, pendingDoc, committedDoc]

theorem docs_nil {db : PyStr} {h : OptHist} (he : h.docs db = []) : h = OptHist.empty := by
  obtain ⟨c, p⟩ := h
  unfold OptHist.docs at he
  rw [List.append_eq_nil_iff] at he
  cases c with
  | nil =>
    cases p with
    | none => rfl
    | some o => simp at he
  | cons x c => simp at he

theorem step_docs (U : Unicode) {db : PyStr} {hi : Option Int} {h : OptHist} {m : Mongo} (hk : h.Ok hi) (hm : m.options = h.docs db)
    (st : Step) (hc : ∀ t, st.clock? = some t → gtAfter hi t = true) (ho : ∀ o, st.options? = some o → OptionsOk o) :
    ∃ h', st.OptSpec U db m h h' ∧ (st.run U db m).options = h'.docs db ∧ h'.Ok (st.clock?.or hi) := by
  cases st with
  | call c =>
    obtain ⟨ret, h1, h2, h3⟩ := call_docs U hk hm c hc ho
    refine ⟨_, ?_, h2, h3⟩
    simp only [Step.OptSpec]
    rcases h1 with h1 | ⟨⟨e, h1⟩, rfl⟩ <;> rw [h1]
  | ingestStops mf rs n =>
    refine ⟨h, rfl, ?_, hk⟩
    simp only [Step.run]
    split <;> exact hm
  | rollbackStops n =>
    refine ⟨h, rfl, ?_, hk⟩
    simp only [Step.run]
    split <;> exact hm
  | optionsStop deleted =>
    have e1 : (h.committed.map (committedDoc db)).filter (fun d => d.version.isSome || !deleted d) = h.committed.map (committedDoc db) := by
      rw [List.filter_eq_self]
      intro d hd
      obtain ⟨x, _, rfl⟩ := List.mem_map.1 hd
      simp [committedDoc]
    have e : ((Step.optionsStop deleted).run U db m).options =
        (h.committed.map (committedDoc db)) ++ (h.pending.toList.map (pendingDoc db)).filter (fun d => d.version.isSome || !deleted d) := by
      simp only [Step.run]
      rw [hm, OptHist.docs, List.filter_append, e1]
    cases hp : h.pending with
    | none =>
      refine ⟨h, .inl rfl, ?_, hk⟩
      rw [e, OptHist.docs, hp]; rfl
    | some o =>
      by_cases hd : deleted (pendingDoc db o) = true
      · refine ⟨h.rollback, .inr rfl, ?_, hk.rollback⟩
        rw [e, hp]
        have : (pendingDoc db o).version = none := rfl
        simp [OptHist.docs, OptHist.rollback, hd, this]
      · refine ⟨h, .inl rfl, ?_, hk⟩
        rw [e, hp]
        have hd' : deleted (pendingDoc db o) = false := by simpa using hd
        simp [OptHist.docs, hp, hd']
  | commitStops clock picks died =>
    have hgt := hc clock rfl
    have hrun : ((Step.commitStops clock picks died).run U db m).options =
        (commitRun db (m, .acquire) (picks.map (fun k => (clock, k)))).1.options := by
      simp only [Step.run]
      split <;> rfl
    by_cases hl : db ∈ m.locks
    · refine ⟨h, .inl rfl, ?_, hk.later hgt⟩
      rw [hrun]
      have : (commitRun db (m, .acquire) (picks.map (fun k => (clock, k)))).1 = m := by
        cases picks with
        | nil => rfl
        | cons k ks =>
          rw [List.map_cons, commitRun_cons, commitStep_acquire_locked hl]
          clear hrun hc ho
          induction ks with
          | nil => rfl
          | cons k ks ih => rw [List.map_cons, commitRun_cons]; exact ih
      rw [this]; exact hm
    · have hul : isLocked db m = false := by simp [isLocked, hl]
      have hmid := (Mid.run hl (picks.map (fun k => (clock, k))) (Mid.start db [clock] m) (by simp)).options
      rw [← hrun, hm] at hmid
      rcases hmid with hmid | ⟨h0, hmid⟩
      · rcases optPart_docs hmid with e | e
        · exact ⟨h, .inl rfl, e, hk.later hgt⟩
        · by_cases hp : h.pending = none
          · refine ⟨h, .inl rfl, ?_, hk.later hgt⟩
            rw [e, OptHist.give, hp]
          · refine ⟨h.commit clock, .inr ⟨hul, .inr rfl⟩, ?_, hk.commit hgt⟩
            rw [e]
            have : h.orDefault = h := by
              unfold OptHist.orDefault
              split
              · rename_i hp'; exact absurd hp' hp
              · rfl
            rw [OptHist.commit, this]
      · have hE := docs_nil h0
        subst hE
        have hd : [⟨db, none, defaultOptions.toDoc⟩] = OptHist.empty.orDefault.docs db := rfl
        rw [hd] at hmid
        rcases optPart_docs hmid with e | e
        · exact ⟨_, .inr ⟨hul, .inl rfl⟩, e, hk.orDefault.later hgt⟩
        · exact ⟨_, .inr ⟨hul, .inr rfl⟩, e, hk.commit hgt⟩
  | release => exact ⟨h, rfl, hm, hk⟩

theorem steps_docs (U : Unicode) (db : PyStr) : ∀ (steps : List Step) {m : Mongo} {h : OptHist} {hi : Option Int}, h.Ok hi →
    m.options = h.docs db → (∀ t ∈ steps.filterMap Step.clock?, gtAfter hi t = true) →
    (steps.filterMap Step.clock?).Pairwise (· < ·) → (∀ o ∈ steps.filterMap Step.options?, OptionsOk o) →
    ∃ h' hi', OptStepsSpec U db m h steps h' ∧ h'.Ok hi' ∧ (runSteps U db m steps).options = h'.docs db
  | [], m, h, hi, hk, hm, _, _, _ => ⟨h, hi, rfl, hk, hm⟩
  | c :: steps, m, h, hi, hk, hm, hc, hp, ho => by
    obtain ⟨h', h1, h2, h3⟩ := step_docs U hk hm c (fun t ht => hc t (by simp [List.filterMap_cons, ht]))
      (fun o h => ho o (by simp [List.filterMap_cons, h]))
    have hgt : ∀ t ∈ steps.filterMap Step.clock?, gtAfter (c.clock?.or hi) t = true := by
      intro t ht
      cases hk : c.clock? with
      | none => exact hc t (by simp [List.filterMap_cons, hk, ht])
      | some v =>
        rw [List.filterMap_cons, hk] at hp
        have := (List.pairwise_cons.1 hp).1 t ht
        simp [gtAfter, this]
    have hp' : (steps.filterMap Step.clock?).Pairwise (· < ·) := by
      rw [List.filterMap_cons] at hp
      cases hk : c.clock? with
      | none => rwa [hk] at hp
      | some v => rw [hk] at hp; exact (List.pairwise_cons.1 hp).2
    have ho' : ∀ o ∈ steps.filterMap Step.options?, OptionsOk o := by
      intro o hm
      refine ho o ?_
      rw [List.filterMap_cons]
      cases c.options? with
      | none => exact hm
      | some x => exact List.mem_cons_of_mem _ hm
    obtain ⟨h'', hi', g1, g2, g3⟩ := steps_docs U db steps h3 h2 hgt hp' ho'
    exact ⟨h'', hi', ⟨h', h1, g1⟩, g2, g3⟩

end Splitgill
