import Verif.Proof.World3
/-! # Interrupted commits -/

namespace Splitgill

/-- Some of the uncommitted records got a version. -/
def Part (vs : List Int) (c c' : Coll) : Prop := List.Forall₂ (fun d d' => d' = d ∨ GetsVersion vs d d') c c'

def OptPart (vs : List Int) (c c' : List OptDoc) : Prop :=
  List.Forall₂ (fun d d' => d' = d ∨ OptGetsVersion vs d d') c c'

theorem Part.refl (vs : List Int) : ∀ c, Part vs c c
  | [] => .nil
  | _ :: c => .cons (.inl rfl) (Part.refl vs c)

theorem OptPart.refl (vs : List Int) : ∀ c, OptPart vs c c
  | [] => .nil
  | _ :: c => .cons (.inl rfl) (OptPart.refl vs c)

theorem GetsVersion.mono {vs ws : List Int} (h : vs ⊆ ws) {d d' : MongoRecord} : GetsVersion vs d d' → GetsVersion ws d d'
  | .inl h => .inl h
  | .inr ⟨h1, v, h2, h3⟩ => .inr ⟨h1, v, h h2, h3⟩

theorem OptGetsVersion.mono {vs ws : List Int} (h : vs ⊆ ws) {d d' : OptDoc} : OptGetsVersion vs d d' → OptGetsVersion ws d d'
  | .inl h => .inl h
  | .inr ⟨h1, v, h2, h3⟩ => .inr ⟨h1, v, h h2, h3⟩

theorem Part.nth {vs : List Int} {v : Int} (hv : v ∈ vs) : ∀ {c c' : Coll} (k : Nat), Part vs c c' →
    Part vs c (commitNth v k c')
  | _, _, k, .nil => by simp [commitNth]; exact .nil
  | _, _, k, .cons (l₁ := l) (l₂ := l') (a := d) (b := d') h hr => by
    unfold commitNth
    by_cases hd : d'.version.isNone = true
    · rw [if_pos hd]
      cases k with
      | zero =>
        refine .cons (.inr ?_) hr
        rcases h with h | h | ⟨h1, w, h2, h3⟩
        · subst h; exact .inr ⟨by simpa using hd, v, hv, rfl⟩
        · have h2 := h.2; subst h2; exact absurd (by simpa using hd) h.1
        · subst h3; simp at hd
      | succ k => exact .cons h (Part.nth hv k hr)
    · rw [if_neg hd]; exact .cons h (Part.nth hv k hr)

theorem OptPart.nth {vs : List Int} {v : Int} (hv : v ∈ vs) : ∀ {c c' : List OptDoc} (k : Nat), OptPart vs c c' →
    OptPart vs c (commitNthOptions v k c')
  | _, _, k, .nil => by simp [commitNthOptions]; exact .nil
  | _, _, k, .cons (l₁ := l) (l₂ := l') (a := d) (b := d') h hr => by
    unfold commitNthOptions
    by_cases hd : d'.version.isNone = true
    · rw [if_pos hd]
      cases k with
      | zero =>
        refine .cons (.inr ?_) hr
        rcases h with h | h | ⟨h1, w, h2, h3⟩
        · subst h; exact .inr ⟨by simpa using hd, v, hv, rfl⟩
        · have h2 := h.2; subst h2; exact absurd (by simpa using hd) h.1
        · subst h3; simp at hd
      | succ k => exact .cons h (OptPart.nth hv k hr)
    · rw [if_neg hd]; exact .cons h (OptPart.nth hv k hr)

theorem Part.commit {vs : List Int} {v : Int} (hv : v ∈ vs) {c c' : Coll} (h : Part vs c c') :
    Committed vs c (commitColl v c') := by
  induction h with
  | nil => exact .nil
  | @cons d d' l l' h _ ih =>
    refine .cons ?_ ih
    dsimp only
    by_cases hd : d'.version.isNone = true
    · rw [if_pos hd]
      rcases h with h | h | ⟨h1, w, h2, h3⟩
      · subst h; exact .inr ⟨by simpa using hd, v, hv, rfl⟩
      · have h2 := h.2; subst h2; exact absurd (by simpa using hd) h.1
      · subst h3; simp at hd
    · rw [if_neg hd]
      rcases h with h | h
      · subst h; exact .inl ⟨by simpa using hd, rfl⟩
      · exact h

theorem Part.clean {vs : List Int} {c c' : Coll} (h : Part vs c c') (hc : ∀ d ∈ c', d.version ≠ none) :
    Committed vs c c' := by
  induction h with
  | nil => exact .nil
  | @cons d d' l l' h _ ih =>
    refine .cons ?_ (ih (fun d hd => hc d (by simp [hd])))
    rcases h with h | h
    · subst h; exact .inl ⟨hc d' (by simp), rfl⟩
    · exact h

theorem OptPart.commit {vs : List Int} {v : Int} (hv : v ∈ vs) {c c' : List OptDoc} (h : OptPart vs c c') :
    List.Forall₂ (OptGetsVersion vs) c (commitOptions v c') := by
  induction h with
  | nil => exact .nil
  | @cons d d' l l' h _ ih =>
    refine .cons ?_ ih
    dsimp only
    by_cases hd : d'.version.isNone = true
    · rw [if_pos hd]
      rcases h with h | h | ⟨h1, w, h2, h3⟩
      · subst h; exact .inr ⟨by simpa using hd, v, hv, rfl⟩
      · have h2 := h.2; subst h2; exact absurd (by simpa using hd) h.1
      · subst h3; simp at hd
    · rw [if_neg hd]
      rcases h with h | h
      · subst h; exact .inl ⟨by simpa using hd, rfl⟩
      · exact h

theorem OptPart.clean {vs : List Int} {c c' : List OptDoc} (h : OptPart vs c c') (hc : ∀ d ∈ c', d.version ≠ none) :
    List.Forall₂ (OptGetsVersion vs) c c' := by
  induction h with
  | nil => exact .nil
  | @cons d d' l l' h _ ih =>
    refine .cons ?_ (ih (fun d hd => hc d (by simp [hd])))
    rcases h with h | h
    · subst h; exact .inl ⟨hc d' (by simp), rfl⟩
    · exact h

theorem forall₂_snoc {α β : Type} {R : α → β → Prop} {a : List α} {b : List β} {x : α} {y : β}
    (h : List.Forall₂ R a b) (hx : R x y) : List.Forall₂ R (a ++ [x]) (b ++ [y]) := by
  induction h with
  | nil => exact .cons hx .nil
  | cons h1 _ ih => exact .cons h1 ih

/-- Where a commit running alone can be. -/
structure Mid (db : PyStr) (vs : List Int) (m0 : Mongo) (s : Mongo × Pc) : Prop where
  data : Part vs (m0.data db) (s.1.data db)
  others : ∀ b, b ≠ db → s.1.data b = m0.data b
  options : OptPart vs m0.options s.1.options ∨
    (m0.options = [] ∧ OptPart vs [⟨db, none, defaultOptions.toDoc⟩] s.1.options)
  locks : s.1.locks = if s.2.inside then m0.locks ++ [db] else m0.locks
  pc : match s.2 with
    | .getOptions => s.1.options = [] ∧ m0.options = []
    | .upCheck l => s.1.options = [] ∧ m0.options = [] ∧ l = none
    | .upRollback _ => False
    | .upInsert l => s.1.options = [] ∧ m0.options = [] ∧ l = none
    | .pendingOptions => hasOptions s.1 = false ∧ s.1.options = m0.options
    | .acquire => s.1 = m0
    | .checkData => s.1.options = m0.options
    | .checkOptions => s.1.options = m0.options
    | .hasOptions => s.1.options = m0.options
    | .data v => v ∈ vs
    | .options v => v ∈ vs
    | .raising => False
    | .failed => False
    | .locked => False
    | _ => True

theorem Mid.step {db : PyStr} {vs : List Int} {m0 : Mongo} (hl : db ∉ m0.locks) {s : Mongo × Pc}
    (h : Mid db vs m0 s) {clock : Int} (hc : clock ∈ vs) (pick : Nat) :
    Mid db vs m0 (commitStep db clock pick s.1 s.2) := by
  obtain ⟨m, pc⟩ := s
  obtain ⟨h1, h2, h3, h4, h5⟩ := h
  dsimp only at *
  cases pc with
  | acquire =>
    subst h5
    rw [commitStep_acquire_free hl]
    exact ⟨h1, h2, h3, rfl, rfl⟩
  | checkData =>
    simp only [commitStep]
    split <;> exact ⟨h1, h2, h3, h4, h5⟩
  | checkOptions =>
    simp only [commitStep]
    split <;> exact ⟨h1, h2, h3, h4, by first | exact h5 | trivial⟩
  | hasOptions =>
    simp only [commitStep]
    split
    · exact ⟨h1, h2, h3, h4, trivial⟩
    · rename_i hh; exact ⟨h1, h2, h3, h4, by simpa using hh, h5⟩
  | pendingOptions =>
    simp only [commitStep]
    split
    · exact ⟨h1, h2, h3, h4, trivial⟩
    · rename_i hh
      have h0 := no_options h5.1 (by simpa using hh)
      exact ⟨h1, h2, h3, h4, h0, h5.2 ▸ h0⟩
  | getOptions =>
    simp only [commitStep]
    exact ⟨h1, h2, h3, h4, h5.1, h5.2, by simp [latestOptions, Splitgill.getOptions, h5.1]⟩
  | upCheck l =>
    simp only [commitStep]
    rw [if_neg (by simp [hasUncommittedOptions, h5.1])]
    exact ⟨h1, h2, h3, h4, h5⟩
  | upRollback l => exact h5.elim
  | upInsert l =>
    obtain ⟨h5, h6, rfl⟩ := h5
    simp only [commitStep, sameAsLatest, Bool.false_eq_true, if_false]
    refine ⟨h1, h2, .inr ⟨h6, ?_⟩, h4, trivial⟩
    simp only [insertOptions, h5, List.nil_append]
    exact OptPart.refl _ _
  | clock => exact ⟨h1, h2, h3, h4, hc⟩
  | data v =>
    simp only [commitStep]
    split
    · refine ⟨?_, ?_, h3, h4, h5⟩
      · simp only [setData_data]; exact h1.nth h5 pick
      · intro b hb; simp only [Mongo.setData, hb, if_false]; exact h2 b hb
    · exact ⟨h1, h2, h3, h4, h5⟩
  | options v =>
    simp only [commitStep]
    split
    · refine ⟨h1, h2, ?_, h4, h5⟩
      rcases h3 with h3 | ⟨h3, h3'⟩
      · exact .inl (h3.nth h5 pick)
      · exact .inr ⟨h3, h3'.nth h5 pick⟩
    · exact ⟨h1, h2, h3, h4, trivial⟩
  | release r =>
    refine ⟨h1, h2, h3, ?_, trivial⟩
    have h4 : m.locks = m0.locks ++ [db] := h4
    simp only [commitStep, release, h4, erase_append_self hl]
    rfl
  | raising => exact h5.elim
  | done r => exact ⟨h1, h2, h3, h4, trivial⟩
  | locked => exact h5.elim
  | failed => exact h5.elim

theorem Mid.run {db : PyStr} {vs : List Int} {m0 : Mongo} (hl : db ∉ m0.locks) : ∀ (cs : List (Int × Nat))
    {s : Mongo × Pc}, Mid db vs m0 s → (∀ c ∈ cs, c.1 ∈ vs) → Mid db vs m0 (commitRun db s cs)
  | [], _, h, _ => h
  | c :: cs, s, h, hc => by
    rw [commitRun_cons]
    exact Mid.run hl cs (h.step hl (hc c (by simp)) c.2) (fun c h => hc c (by simp [h]))

theorem Mid.start (db : PyStr) (vs : List Int) (m : Mongo) : Mid db vs m (m, .acquire) :=
  ⟨Part.refl _ _, fun _ _ => rfl, .inl (OptPart.refl _ _), rfl, rfl⟩

/-! ## What a version changes about a record -/

theorem GetsVersion.iter {vs : List Int} {d d' : MongoRecord} (h : GetsVersion vs d d') :
    d'.id = d.id ∧ (d'.iter).map (·.map Prod.snd) = (d.iter).map (·.map Prod.snd) := by
  rcases h with ⟨_, rfl⟩ | ⟨_, v, _, rfl⟩
  · exact ⟨rfl, rfl⟩
  · refine ⟨rfl, ?_⟩
    simp only [MongoRecord.iter]
    cases iterLoop d.diffs d.data (sortDesc (akeys d.diffs)) <;> rfl

theorem Committed.history {vs : List Int} {c c' : Coll} (h : Committed vs c c') (id : PyStr) :
    (history c' id).map (·.map Prod.snd) = (history c id).map (·.map Prod.snd) := by
  have key : (findRecord id c = none ∧ findRecord id c' = none) ∨
      ∃ d d', findRecord id c = some d ∧ findRecord id c' = some d' ∧ GetsVersion vs d d' := by
    induction h with
    | nil => exact .inl ⟨rfl, rfl⟩
    | @cons d d' l l' hd hr ih =>
      have he := hd.iter.1
      simp only [findRecord, List.find?_cons, he] at ih ⊢
      by_cases e : d.id = id
      · simp only [e, decide_true]; exact .inr ⟨d, d', rfl, rfl, hd⟩
      · simp only [e, decide_false]; exact ih
  unfold Splitgill.history
  rcases key with ⟨h1, h2⟩ | ⟨d, d', h1, h2, h3⟩
  · rw [h1, h2]
  · rw [h1, h2]; exact h3.iter.2

end Splitgill
