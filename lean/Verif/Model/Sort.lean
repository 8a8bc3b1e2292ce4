import Verif.Basic
/-!
# Sorting of strings (parts/quicksort_strings.c)

A C string is the list of its bytes before the NUL; an array of strings is a list.
-/
namespace Xmq

/-- `strcmp` of the C library: difference of the first differing bytes taken as `unsigned char`, the terminating NUL
    being smaller than every other byte. -/
def strcmp : List Byte → List Byte → Int
  | [], [] => 0
  | [], d :: _ => -(d.toNat : Int)
  | c :: _, [] => c.toNat
  | c :: s, d :: t => if c = d then strcmp s t else (c.toNat : Int) - d.toNat

/-- `swap(arr+i, arr+j)`, parts/quicksort_strings.c 34-39; `none` outside the array. -/
def swapAt {α : Type} (l : List α) (i j : Nat) : Option (List α) :=
  match l[i]?, l[j]? with
  | some a, some b => some ((l.set i b).set j a)
  | _, _ => none

/-- The loop of `quicksort_strings`, parts/quicksort_strings.c 46-52; `k` is `length - i`. -/
def partitionLoop (length : Nat) : Nat → List (List Byte) → Nat → Option (List (List Byte) × Nat)
  | 0, l, piv => some (l, piv)
  | k + 1, l, piv =>
    match l[length - (k + 1)]?, l[length - 1]? with
    | some a, some p =>
      if strcmp a p < 0 then (swapAt l (length - (k + 1)) piv).bind fun l => partitionLoop length k l (piv + 1)
      else partitionLoop length k l piv
    | _, _ => none

/-- `quicksort_strings`, parts/quicksort_strings.c 41-58.  The recursive calls work on the disjoint slices `arr[0..piv)`
    and `arr[piv+1..length)`, so the result is written as a concatenation.  The first argument bounds the depth of
    the recursion; running out gives `none`. -/
def quicksortStrings : Nat → List (List Byte) → Option (List (List Byte))
  | 0, _ => none
  | fuel + 1, l =>
    if l.length ≤ 1 then some l
    else
      (partitionLoop l.length l.length l 0).bind fun q =>
        (swapAt q.1 q.2 (l.length - 1)).bind fun m =>
          (quicksortStrings fuel (m.take q.2)).bind fun a =>
            (quicksortStrings fuel (m.drop (q.2 + 1))).map fun b => a ++ (m.drop q.2).take 1 ++ b

end Xmq
