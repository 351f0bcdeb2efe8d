/-!
Specification of a reduction whose order of combination is not fixed.
-/
namespace Dashmm
namespace Reduce

/-- A value obtained from the contributions `xs` by combining them in any order and any association,
with any number of copies of the identity. -/
inductive Combined {α : Type} (ident : α) (op : α → α → α) : List α → α → Prop
  | ident : Combined ident op [] ident
  | one (x : α) : Combined ident op [x] x
  | op {xs ys : List α} {a b : α} : Combined ident op xs a → Combined ident op ys b →
      Combined ident op (xs ++ ys) (op a b)
  | reorder {xs ys : List α} {a : α} : xs.Perm ys → Combined ident op xs a → Combined ident op ys a

end Reduce
end Dashmm
