import Verif.Proof.Resync2
/-!
# Lemmas: resyncs, and the calls of others
-/

namespace Splitgill

section
variable {P : Type} {X : Parser P} {U : Unicode} {db id : PyStr}

theorem statesOf_prefix : ∀ (cs calls : List ApiCall), ∀ m ∈ statesOf U db calls (cs.map (fun c => [c])),
    ∃ p q, cs = p ++ q ∧ m = afterCalls U db (calls ++ p)
  | [], calls, m, hm => by
    rw [List.map_nil, statesOf, List.mem_singleton] at hm
    exact ⟨[], [], rfl, by rw [List.append_nil]; exact hm⟩
  | c :: cs, calls, m, hm => by
    rw [List.map_cons, statesOf, List.mem_cons] at hm
    rcases hm with rfl | hm
    · exact ⟨[], c :: cs, rfl, by rw [List.append_nil]⟩
    · obtain ⟨p, q, h1, h2⟩ := statesOf_prefix cs (calls ++ [c]) m hm
      exact ⟨c :: p, q, by rw [h1]; rfl, by rw [h2, List.append_assoc]; rfl⟩

theorem BusySync.start_eq (b : BusySync) : (b.long U db []).start = afterCalls U db b.before := rfl

theorem BusySync.busy {b : BusySync} (ho : Orderly b.calls) (hv : ∃ v, IsVersion (afterCalls U db b.before) db v)
    (hr : ∀ sel, Scanned db (b.long U db []).during sel (b.cursor sel)) : (b.long U db []).Busy db := by
  refine ⟨?_, hr⟩
  rw [BusySync.during_eq, List.nil_append]
  exact life_dbOks _ _ (by rw [map_flatten_single]; exact ho) hv

theorem BusySync.laterFor {K : PyStr → DataClass} (hX : ∀ a b o, DEq (K id) a b → X.parse a o = X.parse b o) {b : BusySync}
    (hq : ∀ c ∈ b.calls, Fits K U c.stream) (ho : Orderly b.calls) (hv : ∃ v, IsVersion (afterCalls U db b.before) db v) {t : Int}
    (ht : (b.before.filterMap ApiCall.clock?).getLast? = some t) :
    ∀ m ∈ (b.long U db []).during, LaterFor X db id t (b.long U db []).start m := by
  intro m hm
  rw [BusySync.during_eq, List.nil_append] at hm
  obtain ⟨p, q, h1, rfl⟩ := statesOf_prefix _ _ m hm
  have e : b.calls = (b.before ++ p) ++ q := by rw [BusySync.calls, h1, List.append_assoc]
  obtain ⟨v, hv⟩ := hv
  obtain ⟨t1, k1, k2, s', hi', k3, k4⟩ := life_evolves (fun c hc => hq c (by rw [e]; exact List.mem_append_left _ hc))
    (by rw [e] at ho; exact ho.left) hv
  rw [ht] at k1
  cases k1
  exact k4.laterFor hX k2 k3

theorem BusySync.untouched {b : BusySync} (hq : (b.long U db []).Busy db) (h : CommittedUntouched U db b id) :
    NoPendingOf db id (b.long U db []).start ∧
    ∀ m ∈ (b.long U db []).during, findRecord id (m.data db) = findRecord id ((b.long U db []).start.data db) := by
  have hm := hq.dbOk _ (List.mem_cons_self : (b.long U db []).start ∈ (b.long U db []).during)
  have hp : NoPendingOf db id (b.long U db []).start := by
    intro r1 hr1 hid1
    obtain ⟨r2, h2, hid2, h3⟩ := h.committed
    have e1 := findRecord_of_mem hm.nodup hr1
    have e2 := findRecord_of_mem hm.nodup h2
    rw [hid1] at e1
    rw [hid2, e1] at e2
    cases e2
    exact h3
  refine ⟨hp, fun m hmm => ?_⟩
  rw [BusySync.during_eq, List.nil_append] at hmm
  rw [findRecord_docsWith, findRecord_docsWith, statesOf_docs b.meanwhile b.before h.notIngested hp m hmm]
  rfl

theorem DbOk.hist_ne {m : Mongo} (hm : DbOk db m) (h : ∃ r ∈ m.data db, r.id = id ∧ r.version ≠ none) : histOf (m.data db) id ≠ [] := by
  obtain ⟨r, hr, rfl, hv⟩ := h
  obtain ⟨w, hw⟩ := Option.ne_none_iff_exists'.1 hv
  obtain ⟨_, d, hd⟩ := hm.head hr hw
  intro he; rw [he] at hd; cases hd

end

end Splitgill
