import Verif.Codec.Spec

/-!
# What can be seen of a value

Nothing in this file mentions bytes, tags or the encoder/decoder.
-/

namespace Verif.Codec

open Verif

mutual

/-- The meaning of a Go value as far as its maps can be looked up: the value below a key that is not equal to itself is
never found. -/
def seen : Val → Content
  | .seq _ xs => .list (seenList xs)
  | .map _ kvs => .map (seenEntries kvs)
  | .nil => .nil
  | .bool _ b => .bool b
  | .uint _ _ v => .nat v.toNat
  | .int _ _ v => .int v.toInt
  | .f32 _ b => .float (widen b)
  | .f64 _ b => .float b
  | .str _ s => .str s
  | .bad _ => .unsupported

def seenList : List Val → List Content
  | [] => []
  | x :: xs => seen x :: seenList xs

def seenEntries : List (Val × Val) → List (Content × Content)
  | [] => []
  | (k, v) :: rest => (seen k, if reflexive k then seen v else .nil) :: seenEntries rest

end

mutual

/-- Maps are well formed in Go's own sense: no two keys are equal. -/
def legal : Val → Bool
  | .seq _ xs => legalList xs
  | .map _ kvs => legalEntries kvs && distinctKeys (kvs.map Prod.fst)
  | _ => true

def legalList : List Val → Bool
  | [] => true
  | x :: xs => legal x && legalList xs

def legalEntries : List (Val × Val) → Bool
  | [] => true
  | (k, v) :: rest => legal k && legal v && legalEntries rest

end

mutual

/-- What is equal to something is equal to itself. -/
theorem goEq_self {a b : Val} (h : goEq a b = true) : goEq b b = true := by
  cases b with
  | seq ty ys =>
    cases ty with
    | array t =>
      cases a with
      | seq ty' xs =>
        cases ty' with
        | array t' =>
          simp only [goEq, Bool.and_eq_true] at h ⊢
          exact ⟨by simp, goEqList_self h.2⟩
        | _ => simp [goEq] at h
      | _ => simp [goEq] at h
    | _ => cases a with
      | seq ty' xs => cases ty' <;> simp [goEq] at h
      | _ => simp [goEq] at h
  | map ty kvs => cases a with
      | seq ty' xs => cases ty' <;> simp [goEq] at h
      | _ => simp [goEq] at h
  | bad k => cases a with
      | seq ty' xs => cases ty' <;> simp [goEq] at h
      | _ => simp [goEq] at h
  | _ => cases a with
    | seq ty' xs => cases ty' <;> simp [goEq] at h
    | _ => first | (simp [goEq] at h; done) | (simp [goEq] at h ⊢; try simp_all [eq32, eq64])

theorem goEqList_self {xs ys : List Val} (h : goEqList xs ys = true) : goEqList ys ys = true := by
  match xs, ys with
  | _, [] => rfl
  | [], _ :: _ => simp [goEqList] at h
  | x :: xs, y :: ys =>
    simp only [goEqList, Bool.and_eq_true] at h ⊢
    exact ⟨goEq_self h.1, goEqList_self h.2⟩

end

end Verif.Codec
