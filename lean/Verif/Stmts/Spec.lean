import Verif.Stmts.Model

/-
Statements as one writes them, their text, and what they mean.
-/
namespace Wrench.Stmts

open Wrench

mutual
/-- Source statements.  `block` is a statement in braces, `empty` a lone semicolon. -/
inductive S where
  | empty
  | ex (x : E)
  | block (l : SL)
  | ifThen (c : E) (s : S)
  | ifElse (c : E) (s t : S)
  | loop (c : E) (s : S)
  | doLoop (s : S) (c : E)
  | forLoop (init : List E) (c : Option E) (post : List E) (s : S)
  | each (k : Option Nat) (v : Nat) (a : Nat) (s : S)
  | brk
  | cont
  | ret (x : Option E)
  | switch (sel : E) (b : SB)
/-- Statements one after the other. -/
inductive SL where
  | nil
  | cons (s : S) (l : SL)
/-- The body of a switch. -/
inductive SB where
  | nil
  | case (h : Word32) (b : SB)
  | dflt (b : SB)
  | stmt (s : S) (b : SB)
end

/-- Expressions with commas between them. -/
def commas : List E → List Tok
  | [] => []
  | [x] => [.e x]
  | x :: y :: l => .e x :: .comma :: commas (y :: l)

/-- The condition of a `for`, which may be missing. -/
def condText : Option E → List Tok
  | some c => [.e c]
  | none => []

/-- The key variable of a for-each, which may be missing. -/
def keyText : Option Nat → List Tok
  | some k => [.e (.nm k), .comma]
  | none => []

mutual
/-- The text of a statement. -/
def text : S → List Tok
  | .empty => [.semi]
  | .ex x => [.e x, .semi]
  | .block l => .lb :: (textL l ++ [.rb])
  | .ifThen c s => .kIf :: .lp :: .e c :: .rp :: text s
  | .ifElse c s t => .kIf :: .lp :: .e c :: .rp :: (text s ++ .kElse :: text t)
  | .loop c s => .kWhile :: .lp :: .e c :: .rp :: text s
  | .doLoop s c => .kDo :: (text s ++ [.kWhile, .lp, .e c, .rp, .semi])
  | .forLoop i c p s =>
    .kFor :: .lp :: (commas i ++ .semi :: (condText c ++ .semi ::
      (commas p ++ .rp :: text s)))
  | .each k v a s =>
    .kFor :: .lp :: (keyText k ++
      .e (.nm v) :: .colon :: .e (.nm a) :: .rp :: text s)
  | .brk => [.kBreak, .semi]
  | .cont => [.kContinue, .semi]
  | .ret none => [.kReturn, .semi]
  | .ret (some x) => [.kReturn, .e x, .semi]
  | .switch c b => .kSwitch :: .lp :: .e c :: .rp :: .lb :: (textB b ++ [.rb])
def textL : SL → List Tok
  | .nil => []
  | .cons s l => text s ++ textL l
def textB : SB → List Tok
  | .nil => []
  | .case h b => .kCase :: .lit h :: .colon :: textB b
  | .dflt b => .kDefault :: .colon :: textB b
  | .stmt s b => text s ++ textB b
end

variable {σ ρ : Type}

/-- The variables of a for-each. -/
def vars (k : Option Nat) (v : Nat) : List Nat := k.toList ++ [v]

mutual
/-- What a statement means, as a statement of Flow/Spec.lean. -/
def mean (v : Env σ ρ) : S → Flow.Stmt σ ρ
  | .empty => .skip
  | .ex x => .act (v.act x)
  | .block l => meanL v l
  | .ifThen c s => .ifThen (v.test c) (mean v s)
  | .ifElse c s t => .ifElse (v.test c) (mean v s) (mean v t)
  | .loop c s => .loop (v.test c) (mean v s)
  | .doLoop s c => .doLoop (mean v s) (v.test c)
  | .forLoop i c p s => .forLoop (i.map v.act) (c.map v.test) (p.map v.act) (mean v s)
  | .each k w a s => .each (v.start a) (v.next (vars k w) a) (mean v s)
  | .brk => .brk
  | .cont => .cont
  | .ret x => .ret (v.result x)
  | .switch c b => .switch (v.hash c) (meanB v b)
def meanL (v : Env σ ρ) : SL → Flow.Stmt σ ρ
  | .nil => .skip
  | .cons s l => .seq (mean v s) (meanL v l)
def meanB (v : Env σ ρ) : SB → Flow.Body σ ρ
  | .nil => .nil
  | .case h b => .case h (meanB v b)
  | .dflt b => .dflt (meanB v b)
  | .stmt s b => .stmt (mean v s) (meanB v b)
end

/-! ### Which sources the parser reads as they are meant -/

/-- The statement ends in a `break` or `continue` without braces around it, whose semicolon the parser
does not read. -/
def leaks : S → Bool
  | .brk => true
  | .cont => true
  | .ifThen _ s => leaks s
  | .ifElse _ _ t => leaks t
  | .loop _ s => leaks s
  | .forLoop _ _ _ s => leaks s
  | .each _ _ _ s => leaks s
  | _ => false

/-- The statement ends in an `if` without `else`. -/
def openIf : S → Bool
  | .ifThen _ _ => true
  | .ifElse _ _ t => openIf t
  | .loop _ s => openIf s
  | .forLoop _ _ _ s => openIf s
  | .each _ _ _ s => openIf s
  | _ => false

def isBlock : S → Bool
  | .block _ => true
  | _ => false

mutual
/-- No `else` belongs to two `if`s; no `break` or `continue` without braces before an `else` or as the
body of a `do`; no block directly in a block. -/
def Reads : S → Prop
  | .block l => ReadsL l
  | .ifThen _ s => Reads s
  | .ifElse _ s t => Reads s ∧ Reads t ∧ leaks s = false ∧ openIf s = false
  | .loop _ s => Reads s
  | .doLoop s _ => Reads s ∧ leaks s = false
  | .forLoop _ _ _ s => Reads s
  | .each _ _ _ s => Reads s
  | .switch _ b => ReadsB b
  | _ => True
def ReadsL : SL → Prop
  | .nil => True
  | .cons s l => isBlock s = false ∧ Reads s ∧ ReadsL l
def ReadsB : SB → Prop
  | .nil => True
  | .case _ b => ReadsB b
  | .dflt b => ReadsB b
  | .stmt s b => Reads s ∧ ReadsB b
end

/-- `break;` or `continue;` itself. -/
def isJump : S → Bool
  | .brk => true
  | .cont => true
  | _ => false

def isEmpty : S → Bool
  | .empty => true
  | _ => false

mutual
/-- In every block: no lone semicolon, and a `break` or `continue` stands either directly in the block
or has braces around it. -/
def Level : S → Prop
  | .block l => LevelL l
  | .ifThen _ s => Level s
  | .ifElse _ s t => Level s ∧ Level t
  | .loop _ s => Level s
  | .doLoop s _ => Level s
  | .forLoop _ _ _ s => Level s
  | .each _ _ _ s => Level s
  | .switch _ b => LevelB b
  | _ => True
def LevelL : SL → Prop
  | .nil => True
  | .cons s l => isEmpty s = false ∧ (isJump s = true ∨ leaks s = false) ∧ Level s ∧ LevelL l
def LevelB : SB → Prop
  | .nil => True
  | .case _ b => LevelB b
  | .dflt b => LevelB b
  | .stmt s b => Level s ∧ LevelB b
end

/-! ### What the parser makes of a source -/

mutual
/-- The tree for a statement. -/
def tree : S → P
  | .empty => .skip
  | .ex x => .ex x
  | .block l => treeL l
  | .ifThen c s => .ifThen (some c) (tree s)
  | .ifElse c s t => .ifElse (some c) (tree s) (tree t)
  | .loop c s => .loop (some c) (tree s)
  | .doLoop s c => .doLoop (tree s) (some c)
  | .forLoop i c p s => .forLoop (i.map some) c (p.map some) (tree s)
  | .each k v a s => .each (vars k v) a (tree s)
  | .brk => .brk
  | .cont => .cont
  | .ret x => .ret x
  | .switch c b => .switch (some c) (treeB b)
/-- In a block a lone semicolon, or one that has not been read, is a `pop`. -/
def treeL : SL → P
  | .nil => .skip
  | .cons .empty l => .seq .pop (treeL l)
  | .cons s l => .seq (tree s) (if leaks s = true then .seq .pop (treeL l) else treeL l)
/-- In a switch a semicolon that has not been read is an empty statement. -/
def treeB : SB → PB
  | .nil => .nil
  | .case h b => .case h (treeB b)
  | .dflt b => .dflt (treeB b)
  | .stmt s b => .stmt (tree s) (if leaks s = true then .stmt .skip (treeB b) else treeB b)
end

/-- On the top level as well. -/
def treeT : SL → P
  | .nil => .skip
  | .cons s l => .seq (tree s) (if leaks s = true then .seq .skip (treeT l) else treeT l)

/-- The condition for the top level: a block may stand there. -/
def ReadsT : SL → Prop
  | .nil => True
  | .cons s l => Reads s ∧ ReadsT l

end Wrench.Stmts
