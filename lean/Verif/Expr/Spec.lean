import Verif.Expr.Model

/-
Specification of expressions: syntax trees, their token sequence, their value, and which
trees a token sequence stands for (precedence levels and left associativity).
-/
namespace Wrench.Expr

variable {V : Type}

/-- Syntax trees over operands of type `V`. -/
inductive Tree (V : Type) where
  | leaf (v : V)
  | pre (u : Pre) (t : Tree V)
  | post (q : Post) (t : Tree V)
  | bin (b : Bin) (l r : Tree V)

/-- The symbol a binary operator is written with. -/
def Bin.sym : Bin → Sym
  | .eq => .eq | .ne => .ne | .ge => .ge | .le => .le | .gt => .gt | .lt => .lt
  | .land => .land | .lor => .lor | .add => .plus | .sub => .minus | .mul => .star
  | .div => .slash | .mod => .percent | .or => .bar | .and => .amp | .xor => .caret
  | .shr => .shr | .shl => .shl

def Pre.sym : Pre → Sym
  | .lnot => .bang | .bnot => .tilde | .neg => .minus | .toInt => .castInt
  | .toFloat => .castFloat

def Post.sym : Post → Sym
  | .count => .count | .hash => .hash

/-- The tree written out without parentheses. -/
def Tree.tokens : Tree V → List (Tok V)
  | .leaf v => [.val v]
  | .pre u t => .sym u.sym :: t.tokens
  | .post q t => t.tokens ++ [.sym q.sym]
  | .bin b l r => l.tokens ++ .sym b.sym :: r.tokens

/-- The value of a tree. -/
def Tree.eval (I : Interp V) : Tree V → V
  | .leaf v => v
  | .pre u t => I.pre u (t.eval I)
  | .post q t => I.post q (t.eval I)
  | .bin b l r => I.bin b (l.eval I) (r.eval I)

/-- Binding level of the root: operands 0, postfix 2, prefix 3, binary operators by their
table row.  Smaller binds tighter. -/
def Tree.level : Tree V → Nat
  | .leaf _ => 0
  | .post _ _ => 2
  | .pre _ _ => 3
  | .bin b _ _ => b.prec

/-- The tree needs no parentheses: operands of a prefix operator bind tighter than it,
left operands at least as tightly, right operands more tightly (left associativity). -/
def Tree.ok : Tree V → Prop
  | .leaf _ => True
  | .pre _ t => t.ok ∧ t.level ≤ 2
  | .post _ t => t.ok ∧ t.level ≤ 2
  | .bin b l r => l.ok ∧ r.ok ∧ l.level ≤ b.prec ∧ r.level < b.prec

/-- The algebraic laws the operator table relies on: operators marked
`WR_OPER_BINARY_COMMUTE` commute, and the `alt` operator is the mirrored one. -/
structure Interp.Lawful (I : Interp V) : Prop where
  comm : ∀ b, b.commute = true → ∀ x y, I.bin b x y = I.bin b y x
  alt : ∀ b b', b.alt = some b' → ∀ x y, I.bin b' x y = I.bin b y x

def Tree.isLeaf : Tree V → Bool
  | .leaf _ => true
  | _ => false

/-- Number of operators all of whose operands are plain operands. -/
def Tree.births : Tree V → Nat
  | .leaf _ => 0
  | .pre _ t => if t.isLeaf then 1 else t.births
  | .post _ t => if t.isLeaf then 1 else t.births
  | .bin _ l r => if l.isLeaf && r.isLeaf then 1 else l.births + r.births

/-- Number of operands. -/
def Tree.leaves : Tree V → Nat
  | .leaf _ => 1
  | .pre _ t => t.leaves
  | .post _ t => t.leaves
  | .bin _ l r => l.leaves + r.leaves

end Wrench.Expr
