import Verif.Model.PatchHeap
/-!
# `patch` only writes to containers it allocated
-/

namespace Splitgill.Heap
open Splitgill

/-- `h'` has all the objects of the first `n` addresses of `h`, unchanged, and is not smaller. -/
def Frame (n : Nat) (h h' : Heap) : Prop :=
  h.length ≤ h'.length ∧ ∀ a, a < n → h'[a]? = h[a]?

theorem Frame.refl (n : Nat) (h : Heap) : Frame n h h := ⟨Nat.le_refl _, fun _ _ => rfl⟩
theorem Frame.trans {n : Nat} {h h' h'' : Heap} (a : Frame n h h') (b : Frame n h' h'') :
    Frame n h h'' := ⟨Nat.le_trans a.1 b.1, fun x hx => (b.2 x hx).trans (a.2 x hx)⟩

theorem frame_set {n : Nat} {h : Heap} {t : Nat} (ht : n ≤ t) (o : Obj) :
    Frame n h (h.set t o) :=
  ⟨by simp, fun a ha => by rw [List.getElem?_set_ne (by omega)]⟩

theorem frame_append {n : Nat} {h : Heap} (hn : n ≤ h.length) (o : Obj) : Frame n h (h ++ [o]) :=
  ⟨by simp, fun a ha => by rw [List.getElem?_append_left (by omega)]⟩

theorem frame_andThen {α β : Type} {n : Nat} {h : Heap} {r : Res α} {f : Heap → α → Res β}
    (hr : Frame n h r.1) (hf : ∀ h' x, r = (h', .ok x) → Frame n h' (f h' x).1) :
    Frame n h (r.andThen f).1 := by
  obtain ⟨h', x⟩ := r
  cases x with
  | error e => exact hr
  | ok x => exact hr.trans (hf h' x rfl)

theorem copy_spec {n : Nat} {h : Heap} {r : Ref} (hn : n ≤ h.length) :
    Frame n h (copy h r).1 ∧ ∀ h' t, copy h r = (h', .ok t) → t = h.length := by
  unfold copy
  split
  · exact ⟨.refl _ _, fun _ _ h => by cases h⟩
  · split
    · exact ⟨frame_append hn _, fun _ _ h => by cases h; rfl⟩
    · exact ⟨.refl _ _, fun _ _ h => by cases h⟩

theorem setItem_frame {n : Nat} {h : Heap} {t : Nat} (ht : n ≤ t) (e : PathEl) (r : Ref) :
    Frame n h (setItem h t e r) := by
  unfold setItem; split
  · exact frame_set ht _
  · exact frame_set ht _
  · exact .refl _ _

theorem walk_spec {n : Nat} : ∀ (p : Path) (h : Heap) (t : Nat), n ≤ h.length → n ≤ t →
    Frame n h (walk h t p).1 ∧ ∀ h' t', walk h t p = (h', .ok t') → n ≤ t'
  | [], h, t, _, ht => ⟨.refl _ _, fun _ _ e => by cases e; exact ht⟩
  | e :: p, h, t, hn, ht => by
    simp only [walk]
    split
    · exact ⟨.refl _ _, fun _ _ e => by cases e⟩
    · next r _ =>
      obtain ⟨hf, htc⟩ := copy_spec (r := r) hn
      split
      · next h1 x hc => rw [hc] at hf; exact ⟨hf, fun _ _ e => by cases e⟩
      · next h1 tc hc =>
        rw [hc] at hf
        have := htc h1 tc hc
        subst this
        have hf2 := setItem_frame (h := h1) ht e (.addr h.length)
        obtain ⟨hw, hw'⟩ := walk_spec p (setItem h1 t e (.addr h.length)) h.length
          (Nat.le_trans hn (hf.trans hf2).1) hn
        exact ⟨(hf.trans hf2).trans hw, hw'⟩

theorem update_frame {n : Nat} {h : Heap} {t : Nat} (ht : n ≤ t) (o : Option Ref) :
    Frame n h (update h t o).1 := by
  unfold update; split
  · exact .refl _ _
  · exact .refl _ _
  · split
    · exact frame_set ht _
    · exact .refl _ _
    · exact .refl _ _

theorem delKeys_frame {n t : Nat} (ht : n ≤ t) : ∀ (ks : List PyStr) (h : Heap),
    Frame n h (delKeys h t ks).1
  | [], h => .refl _ _
  | k :: ks, h => by
    simp only [delKeys]; split
    · split
      · exact (frame_set ht _).trans (delKeys_frame ht ks _)
      · exact .refl _ _
    · exact .refl _ _

theorem setIndexes_frame {n t : Nat} (ht : n ≤ t) : ∀ (cs : List (Nat × Ref)) (h : Heap),
    Frame n h (setIndexes h t cs).1
  | [], h => .refl _ _
  | (i, r) :: cs, h => by
    simp only [setIndexes]; split
    · split
      · exact (frame_set ht _).trans (setIndexes_frame ht cs _)
      · exact .refl _ _
    · exact .refl _ _

theorem extend_frame {n : Nat} {h : Heap} {t : Nat} (ht : n ≤ t) (o : Option Ref) :
    Frame n h (extend h t o).1 := by
  unfold extend; split
  · exact .refl _ _
  · exact .refl _ _
  · split
    · exact frame_set ht _
    · exact .refl _ _
    · exact .refl _ _

theorem truncate_frame {n : Nat} {h : Heap} {t : Nat} (ht : n ≤ t) (o : Option Nat) :
    Frame n h (truncate h t o).1 := by
  unfold truncate; split
  · exact .refl _ _
  · split
    · exact frame_set ht _
    · exact .refl _ _

theorem applyOps_frame {n : Nat} {h : Heap} {t : Nat} (ht : n ≤ t) (o : HOps) :
    Frame n h (applyOps h t o).1 := by
  unfold applyOps
  refine frame_andThen (update_frame ht _) fun h1 _ _ => ?_
  refine frame_andThen (update_frame ht _) fun h2 _ _ => ?_
  refine frame_andThen (delKeys_frame ht _ _) fun h3 _ _ => ?_
  refine frame_andThen (setIndexes_frame ht _ _) fun h4 _ _ => ?_
  refine frame_andThen (extend_frame ht _) fun h5 _ _ => ?_
  exact truncate_frame ht _

theorem patchLoop_frame {n new : Nat} (hnew : n ≤ new) : ∀ (ops : List (Path × HOps)) (h : Heap),
    n ≤ h.length → Frame n h (patchLoop h new ops).1
  | [], h, _ => .refl _ _
  | (path, op) :: rest, h, hn => by
    simp only [patchLoop]
    obtain ⟨hw, hw'⟩ := walk_spec path h new hn hnew
    refine frame_andThen hw fun h1 t ht => ?_
    have hl : n ≤ h1.length := by rw [ht] at hw; exact Nat.le_trans hn hw.1
    have hao := applyOps_frame (h := h1) (hw' h1 t ht) op
    refine frame_andThen hao fun h2 _ h2e => ?_
    refine patchLoop_frame hnew rest h2 ?_
    rw [h2e] at hao; exact Nat.le_trans hl hao.1

theorem patch_frame (h : Heap) (base : Nat) (ops : List (Path × HOps)) :
    Frame h.length h (patch h base ops).1 := by
  unfold patch
  split
  · exact .refl _ _
  · obtain ⟨hc, hc'⟩ := copy_spec (r := .addr base) (Nat.le_refl h.length)
    refine frame_andThen hc fun h1 new hnew => ?_
    refine patchLoop_frame ?_ ops h1 ?_
    · exact Nat.le_of_eq (hc' h1 new hnew).symm
    · rw [hnew] at hc; exact hc.1

end Splitgill.Heap
