import Verif.Lemmas.PrettyDoc
/-
Sorting a sorted document changes nothing; sorting keeps the height.
-/
namespace Gjson
open Spec

theorem memHeight_insert (a : Bytes × Doc) : ∀ l, memHeight (insertMember a l) = max a.2.height (memHeight l)
  | [] => by simp [insertMember, memHeight]
  | b :: r => by
    unfold insertMember
    split
    · simp [memHeight]
    · simp only [memHeight, memHeight_insert a r]; omega

theorem memHeight_sortMembers : ∀ l, memHeight (sortMembers l) = memHeight l
  | [] => rfl
  | a :: r => by rw [sortMembers, memHeight_insert, memHeight_sortMembers r]; rfl

mutual
theorem height_sort : ∀ d : Doc, d.sort.height = d.height
  | .leaf _ => by simp [Doc.sort]
  | .arr es => by simp only [Doc.sort, Doc.height]; rw [elemHeight_sort es]
  | .obj ms => by simp only [Doc.sort, Doc.height]; rw [memHeight_sortMembers, memHeight_sort ms]
theorem elemHeight_sort : ∀ ds : List Doc, elemHeight (sortElems ds) = elemHeight ds
  | [] => rfl
  | d :: r => by simp only [sortElems, elemHeight]; rw [height_sort d, elemHeight_sort r]
theorem memHeight_sort : ∀ ds : List (Bytes × Doc), memHeight (sortVals ds) = memHeight ds
  | [] => rfl
  | (k, d) :: r => by simp only [sortVals, memHeight]; rw [height_sort d, memHeight_sort r]
end

mutual
theorem height_sortLim : ∀ (n : Nat) (d : Doc), (d.sortLim n).height = d.height
  | _, .leaf _ => by simp [Doc.sortLim]
  | 0, .arr _ => by simp [Doc.sortLim]
  | 0, .obj _ => by simp [Doc.sortLim]
  | n + 1, .arr es => by simp only [Doc.sortLim, Doc.height]; rw [elemHeight_lim n es]
  | n + 1, .obj ms => by
    rw [Doc.sortLim]
    split
    · simp only [Doc.height]; rw [memHeight_sortMembers, memHeight_sort ms]
    · simp only [Doc.height]; rw [memHeight_lim n ms]
theorem elemHeight_lim : ∀ (n : Nat) (ds : List Doc), elemHeight (limElems n ds) = elemHeight ds
  | _, [] => by simp [limElems]
  | n, d :: r => by
    rw [limElems]
    split
    · simp only [elemHeight]; rw [height_sort d, elemHeight_lim n r]
    · simp only [elemHeight]; rw [height_sortLim n d]
theorem memHeight_lim : ∀ (n : Nat) (ds : List (Bytes × Doc)), memHeight (limVals n ds) = memHeight ds
  | _, [] => by simp [limVals]
  | n, (k, d) :: r => by
    rw [limVals]
    split
    · simp only [memHeight]; rw [height_sort d, memHeight_lim n r]
    · simp only [memHeight]; rw [height_sortLim n d]
end

theorem height_norm (b : Bool) (d : Doc) : (norm b d).height = d.height := by
  cases b
  · rfl
  · exact height_sort d

theorem sortVals_insert (a : Bytes × Doc) : ∀ l, sortVals (insertMember a l) = insertMember (a.1, a.2.sort) (sortVals l)
  | [] => by obtain ⟨k, d⟩ := a; simp [insertMember, sortVals]
  | b :: r => by
    obtain ⟨k, d⟩ := a
    obtain ⟨k', d'⟩ := b
    simp only [insertMember, sortVals]
    split
    · simp [sortVals]
    · simp only [sortVals]; rw [sortVals_insert (k, d) r]

theorem sortVals_sortMembers : ∀ l, sortVals (sortMembers l) = sortMembers (sortVals l)
  | [] => rfl
  | (k, d) :: r => by rw [sortMembers, sortVals_insert, sortVals_sortMembers r]; rfl

theorem sortMembers_sorted : ∀ {l : List (Bytes × Doc)}, l.Pairwise (fun x y => rawKey x.1 ≤ rawKey y.1) → sortMembers l = l
  | [], _ => rfl
  | a :: r, h => by
    have h' := List.pairwise_cons.1 h
    rw [sortMembers, sortMembers_sorted h'.2]
    cases r with
    | nil => rfl
    | cons b r => unfold insertMember; rw [if_pos (h'.1 b (by simp))]

end Gjson
