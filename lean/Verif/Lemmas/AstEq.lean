import Verif.Model.Parser

/-! # Equality of syntax trees is decidable

Only used to evaluate the parser on concrete patterns. -/

namespace Sds.Re

mutual

/-- Are the trees equal? -/
def sameAst : Ast → Ast → Bool
  | .empty, .empty => true
  | .literal l, .literal l' => l = l'
  | .concat l, .concat l' => sameAsts l l'
  | .group k a, .group k' a' => k = k' && sameAst a a'
  | .characterClass c, .characterClass c' => c = c'
  | .alternation l, .alternation l' => sameAsts l l'
  | .repetition q a, .repetition q' a' => q = q' && sameAst a a'
  | .assertion k, .assertion k' => k = k'
  | .flags f, .flags f' => f = f'
  | _, _ => false

/-- Are the lists of trees equal? -/
def sameAsts : List Ast → List Ast → Bool
  | [], [] => true
  | a :: l, a' :: l' => sameAst a a' && sameAsts l l'
  | _, _ => false

end

mutual

theorem sameAst_iff (a b : Ast) : sameAst a b = true ↔ a = b := by
  match a, b with
  | .concat l, .concat l' => simp [sameAst, sameAsts_iff l l']
  | .alternation l, .alternation l' => simp [sameAst, sameAsts_iff l l']
  | .group k a, .group k' a' => simp [sameAst, sameAst_iff a a']
  | .repetition k a, .repetition k' a' => simp [sameAst, sameAst_iff a a']
  | .empty, b => cases b <;> simp [sameAst]
  | .literal _, b => cases b <;> simp [sameAst]
  | .characterClass _, b => cases b <;> simp [sameAst]
  | .assertion _, b => cases b <;> simp [sameAst]
  | .flags _, b => cases b <;> simp [sameAst]
  | .concat _, .empty | .concat _, .literal _ | .concat _, .group _ _ | .concat _, .characterClass _
  | .concat _, .alternation _ | .concat _, .repetition _ _ | .concat _, .assertion _ | .concat _, .flags _
  | .alternation _, .empty | .alternation _, .literal _ | .alternation _, .group _ _ | .alternation _, .characterClass _
  | .alternation _, .concat _ | .alternation _, .repetition _ _ | .alternation _, .assertion _ | .alternation _, .flags _
  | .group _ _, .empty | .group _ _, .literal _ | .group _ _, .concat _ | .group _ _, .characterClass _
  | .group _ _, .alternation _ | .group _ _, .repetition _ _ | .group _ _, .assertion _ | .group _ _, .flags _
  | .repetition _ _, .empty | .repetition _ _, .literal _ | .repetition _ _, .concat _
  | .repetition _ _, .characterClass _ | .repetition _ _, .alternation _ | .repetition _ _, .group _ _
  | .repetition _ _, .assertion _ | .repetition _ _, .flags _ => simp [sameAst]

theorem sameAsts_iff (l l' : List Ast) : sameAsts l l' = true ↔ l = l' := by
  match l, l' with
  | [], [] => simp [sameAsts]
  | [], _ :: _ => simp [sameAsts]
  | _ :: _, [] => simp [sameAsts]
  | a :: l, a' :: l' => simp [sameAsts, sameAst_iff a a', sameAsts_iff l l']

end

instance : DecidableEq Ast := fun a b => decidable_of_iff _ (sameAst_iff a b)

end Sds.Re
