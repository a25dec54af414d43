import Verif.Expr.FullPass

/-!
C73: an expression leaves exactly one value, and everything in it happens exactly once.

The property is stated over a grammar of expressions of its own: terms joined by binary operators; a term
is a primary with perhaps one prefix operator and any number of suffixes.
-/
namespace Wrench.Full

/-- Binary operators by their tokens. -/
def Bin.sym : Bin → Sym
  | .eq => .eq | .ne => .ne | .ge => .ge | .le => .le | .gt => .gt | .lt => .lt | .land => .land | .lor => .lor
  | .add => .plus | .sub => .minus | .mul => .star | .div => .slash | .mod => .percent
  | .or => .bar | .and => .amp | .xor => .caret | .shr => .shr | .shl => .shl
  | .addA => .addA | .subA => .subA | .modA => .modA | .mulA => .mulA | .divA => .divA | .orA => .orA
  | .andA => .andA | .xorA => .xorA | .shrA => .shrA | .shlA => .shlA | .assign => .assign
  | .dot => .dot

def Pre.sym : Pre → Sym
  | .inc => .incr | .dec => .decr | .lnot => .bang | .bnot => .tilde | .neg => .minus
  | .toInt => .castInt | .toFloat => .castFloat

/-- Postfix operators without a key. -/
inductive Simple where
  | inc | dec | count | hash
deriving DecidableEq

def Simple.sym : Simple → Sym
  | .inc => .incr | .dec => .decr | .count => .count | .hash => .hash

def Simple.op : Simple → Post
  | .inc => .inc | .dec => .dec | .count => .count | .hash => .hash

/-- What has a key: `a[k]`, `a._remove(k)`, `a._exists(k)`. -/
inductive Keyed where
  | index | remove | exist
deriving DecidableEq

def Keyed.op : Keyed → Post
  | .index => .index | .remove => .remove | .exist => .exist

mutual
inductive Exp where
  | one (t : Term)
  | bin (t : Term) (b : Bin) (r : Exp)

inductive Term where
  | mk (u : Option Pre) (p : Prim) (s : Sufs)

inductive Prim where
  | var (n : Nat)
  | lit (n : Nat)
  | paren (e : Exp)
  | call (f : Nat) (a : Argl)

inductive Sufs where
  | nil
  | simple (q : Simple) (s : Sufs)
  | keyed (q : Keyed) (k : Exp) (s : Sufs)
  /-- `a[]`. -/
  | empty (s : Sufs)
  /-- `a.name`. -/
  | member (n : Nat) (s : Sufs)

inductive Argl where
  | nil
  | cons (e : Exp) (a : Argl)
end

mutual
/-- The source text of an expression. -/
def Exp.text : Exp → Items
  | .one t => t.text .nil
  | .bin t b r => t.text (.sym b.sym r.text)

def Term.text : Term → Items → Items
  | .mk none p s, r => .opd p.text (s.text r)
  | .mk (some u) p s, r => .sym u.sym (.opd p.text (s.text r))

def Prim.text : Prim → Opnd
  | .var n => .var n
  | .lit n => .lit n
  | .paren e => .paren e.text
  | .call f a => .call f a.text

def Sufs.text : Sufs → Items → Items
  | .nil, r => r
  | .simple q s, r => .sym q.sym (s.text r)
  | .keyed q k s, r => .key q.op k.text (s.text r)
  | .empty s, r => .key .index .nil (s.text r)
  | .member n s, r => .sym .dot (.opd (.var n) (s.text r))

def Argl.text : Argl → Args
  | .nil => .nil
  | .cons e a => .cons e.text a.text
end

mutual
/-- What evaluating the expression consists of: each variable, literal, call and operator, as often as it is
written. -/
def Exp.does : Exp → List I
  | .one t => t.does
  | .bin t b r => t.does ++ (.bin b false :: r.does)

def Term.does : Term → List I
  | .mk none p s => p.does ++ s.does
  | .mk (some u) p s => .un u :: (p.does ++ s.does)

def Prim.does : Prim → List I
  | .var n => [.var n]
  | .lit n => [.lit n]
  | .paren e => e.does
  | .call f a => a.does ++ [.call f a.len]

def Sufs.does : Sufs → List I
  | .nil => []
  | .simple q s => .post q.op :: s.does
  | .keyed q k s => (k.does ++ [.post q.op]) ++ s.does
  | .empty s => .lit 0 :: .post .index :: s.does
  | .member n s => .bin .dot false :: .name (.name n) :: s.does

def Argl.does : Argl → List I
  | .nil => []
  | .cons e a => e.does ++ a.does

def Argl.len : Argl → Nat
  | .nil => 0
  | .cons _ a => a.len + 1
end

mutual
/-- The number of operands and operators of an expression itself. -/
def Exp.size : Exp → Nat
  | .one t => t.size
  | .bin t _ r => t.size + 1 + r.size

def Term.size : Term → Nat
  | .mk none _ s => 1 + s.size
  | .mk (some _) _ s => 2 + s.size

def Sufs.size : Sufs → Nat
  | .nil => 0
  | .simple _ s => 1 + s.size
  | .keyed _ _ s => 1 + s.size
  | .empty s => 1 + s.size
  | .member _ s => 2 + s.size
end

def Prim.isVar : Prim → Bool
  | .var _ => true
  | _ => false

def Sufs.isMember : Sufs → Bool
  | .member _ _ => true
  | _ => false

mutual
/-- The limits: at most 255 operands and operators in an expression (what stands in brackets counts as one), at
most 255 arguments of a call; `.name` may follow a variable or another suffix, not a literal, a parenthesis or a call; and
`.` is not used as a binary operator otherwise. -/
def Exp.Fine : Exp → Prop
  | .one t => t.Fine ∧ t.size ≤ 255
  | .bin t b r => t.Fine ∧ b ≠ .dot ∧ r.Fine ∧ t.size + 1 + r.size ≤ 255

def Term.Fine : Term → Prop
  | .mk _ p s => p.Fine ∧ s.Fine ∧ (s.isMember = true → p.isVar = true)

def Prim.Fine : Prim → Prop
  | .var _ => True
  | .lit _ => True
  | .paren e => e.Fine
  | .call _ a => a.Fine ∧ a.len ≤ 255

def Sufs.Fine : Sufs → Prop
  | .nil => True
  | .simple _ s => s.Fine
  | .keyed _ k s => k.Fine ∧ s.Fine
  | .empty s => s.Fine
  | .member _ s => s.Fine

def Argl.Fine : Argl → Prop
  | .nil => True
  | .cons e a => e.Fine ∧ a.Fine
end

/-! ### The contexts the parser makes -/

/-- Before a term there is nothing, a binary or a prefix operator. -/
def Before : Option Kind → Prop
  | none => True
  | some (.oper (.bin _) _) => True
  | some (.oper (.pre _) _) => True
  | _ => False

/-- After a value: the context is not a binary or prefix operator. -/
def After : Kind → Prop
  | .operand _ => True
  | .oper (.post _) _ => True
  | _ => False

theorem before_plain {p : Option Kind} (h : Before p) : prevPlain p = false ∧ parenTaken p = false := by
  cases p with
  | none => exact ⟨rfl, rfl⟩
  | some k =>
    cases k with
    | empty => cases h
    | operand o => cases h
    | resolved => cases h
    | oper r key =>
      cases r with
      | pre u => exact ⟨rfl, rfl⟩
      | bin b => exact ⟨rfl, rfl⟩
      | post q => cases h

theorem after_pre {k : Kind} (h : After k) : preAllowed (some k) = false := by
  cases k with
  | empty => cases h
  | operand o => rfl
  | resolved => cases h
  | oper r key =>
    cases r with
    | pre u => cases h
    | bin b => cases h
    | post q => rfl

theorem found_bin {k : Kind} (h : After k) (b : Bin) : operatorFound (some k) b.sym = some (.bin b) := by
  unfold operatorFound
  rw [after_pre h]
  cases b <;> rfl

theorem found_simple {k : Kind} (h : After k) (q : Simple) : operatorFound (some k) q.sym = some (.post q.op) := by
  unfold operatorFound
  rw [after_pre h]
  cases q <;> rfl

theorem found_pre {p : Option Kind} (h : preAllowed p = true) (u : Pre) : operatorFound p u.sym = some (.pre u) := by
  unfold operatorFound
  rw [h]
  cases u <;> rfl

theorem work_deref (c : List I) : work (derefArg c) = work c := by
  unfold derefArg
  split
  · rw [work_append]; simp [work, I.work]
  · rfl

theorem bal_deref {c : List I} (h : Bal c) : Bal (derefArg c) := by
  unfold derefArg
  split
  · intro d
    rw [height_append, h d]
    simp [height, I.eff]
  · exact h

/-- The contexts of a row of suffixes, from a value on. -/
structure Piece (s t : St) (w : List I) (n : Nat) (cs : List Ctx) : Prop where
  fresh : Fresh cs
  fit : ∀ k ∈ kinds cs, Fit k
  go : go s (kinds cs) = some t
  work : (pend false (kinds cs)).Perm w
  len : cs.length = n

theorem kinds_append (a b : List Ctx) : kinds (a ++ b) = kinds a ++ kinds b := by simp [kinds]

theorem Piece.append {s t u : St} {w v : List I} {n m : Nat} {a b : List Ctx} (h : Piece s t w n a) (g : Piece t u v m b)
    (hs : s ≠ .s3) (ht : t ≠ .s3) : Piece s u (w ++ v) (n + m) (a ++ b) := by
  refine ⟨fun c hc => ?_, fun k hk => ?_, ?_, ?_, ?_⟩
  · rcases List.mem_append.mp hc with h' | h'
    · exact h.fresh c h'
    · exact g.fresh c h'
  · rw [kinds_append] at hk
    rcases List.mem_append.mp hk with h' | h'
    · exact h.fit k h'
    · exact g.fit k h'
  · rw [kinds_append, go_append, h.go]; exact g.go
  · rw [kinds_append, pend_append]
    have e := endDot_go h.go
    rw [show (s == St.s3) = false from by simpa using hs, show (t == St.s3) = false from by simpa using ht] at e
    rw [e]
    exact h.work.append g.work
  · rw [List.length_append, h.len, g.len]

theorem Piece.nil (s : St) : Piece s s [] 0 [] :=
  ⟨(fun _ h => by cases h), (fun _ h => by cases h), rfl, List.Perm.refl _, rfl⟩

/-- One context. -/
theorem Piece.one {s t : St} {k : Kind} (hf : Fit k) (hr : k.isRes = false) (hn : next s k = some t) {w : List I}
    (hw : (todo false k).Perm w) : Piece s t w 1 [⟨k, none⟩] := by
  refine ⟨fun c hc => ?_, fun k' hk => ?_, ?_, ?_, rfl⟩
  · rw [List.mem_singleton.mp hc]; exact ⟨rfl, hr⟩
  · have : k' = k := by simpa [kinds] using hk
    rw [this]; exact hf
  · show (next s k).bind (fun s' => Full.go s' []) = _
    rw [hn]; rfl
  · show (todo false k ++ []).Perm w
    rw [List.append_nil]; exact hw

/-- A `.` and a name. -/
theorem Piece.dot (n : Nat) : Piece (.s2 true) (.s2 true) [.bin .dot false, .name (.name n)] 2
    [⟨.oper (.bin .dot) [], none⟩, ⟨.operand ⟨[.var n], .name n, .label⟩, none⟩] := by
  refine ⟨fun c hc => ?_, fun k' hk => ?_, rfl, ?_, rfl⟩
  · simp only [List.mem_cons, List.not_mem_nil, or_false] at hc
    rcases hc with rfl | rfl <;> exact ⟨rfl, rfl⟩
  · simp only [kinds, List.map_cons, List.map_nil, List.mem_cons, List.not_mem_nil, or_false] at hk
    rcases hk with rfl | rfl
    · trivial
    · intro d; rfl
  · exact List.Perm.refl _

/-- `contexts` on a text that begins with something and goes on with `r`. -/
def Reads (f : Items → Items) (p : Option Kind) (cs : List Ctx) (k : Kind) : Prop :=
  ∀ r, contexts p (f r) = (contexts (some k) r).map (cs ++ ·)

theorem map_map_append (o : Option (List Ctx)) (a b : List Ctx) :
    (o.map (b ++ ·)).map (a ++ ·) = o.map ((a ++ b) ++ ·) := by
  cases o with
  | none => rfl
  | some l => simp

/-- What is to be shown of an expression. -/
def Good (e : Exp) : Prop :=
  ∃ code, compile e.text = some code ∧ Bal code ∧ (work code).Perm e.does

theorem Term.text_not_nil (t : Term) (r : Items) : (t.text r).isNil = false := by
  cases t with
  | mk u p s => cases u <;> simp [Term.text, Items.isNil]

theorem Exp.text_not_nil (e : Exp) : e.text.isNil = false := by
  cases e with
  | one t => simp only [Exp.text]; exact t.text_not_nil _
  | bin t b r => simp only [Exp.text]; exact t.text_not_nil _

theorem bal_ne_nil {c : List I} (h : Bal c) : c ≠ [] := by
  rintro rfl
  have := h 0
  simp [height] at this

theorem good_of {e : Exp} (h : e.Fine) {cs : List Ctx} {v : Bool} (hc : contexts none e.text = some cs)
    (hp : Piece .s0 (.s2 v) e.does e.size cs) : Good e := by
  obtain ⟨code, h1, h2, h3⟩ := resolve_ok hp.fresh ⟨v, hp.go⟩ hp.fit (by
    rw [hp.len]
    cases e with
    | one t => simp only [Exp.Fine] at h; simp only [Exp.size]; exact h.2
    | bin t b r => simp only [Exp.Fine] at h; simp only [Exp.size]; exact h.2.2.2)
  exact ⟨code, by rw [compile, hc]; exact h1, h2, h3.trans hp.work⟩

theorem before_of {p : Option Kind} (h : preAllowed p = true) : Before p := by
  unfold preAllowed at h
  split at h
  · trivial
  · trivial
  · cases h

/-- An operand where one may stand. -/
theorem reads_opd {o : Opnd} {x : Opd} {p : Option Kind} (ho : operand o = some x) (hp : Before p) :
    Reads (.opd o) p [⟨.operand x, none⟩] (.operand x) := by
  intro r
  obtain ⟨h1, h2⟩ := before_plain hp
  have : refused p o = false := by
    cases o <;> assumption
  rw [contexts, this, if_neg (by simp), ho]
  rfl

theorem reads_sym {s : Sym} {row : Row} {p : Option Kind} (hf : operatorFound p s = some row) :
    Reads (.sym s) p [⟨.oper row [], none⟩] (.oper row []) := by
  intro r
  rw [contexts, hf]
  rfl

theorem Reads.comp {f g : Items → Items} {p : Option Kind} {cs ds : List Ctx} {k l : Kind}
    (h : Reads f p cs k) (h' : Reads g (some k) ds l) : Reads (fun r => f (g r)) p (cs ++ ds) l := by
  intro r
  rw [h, h', map_map_append]

theorem Keyed.keyed (q : Keyed) : q.op.keyed = true := by cases q <;> rfl

mutual
theorem contexts_exp : ∀ (e : Exp), e.Fine → ∀ p, preAllowed p = true →
    ∃ cs v, contexts p e.text = some cs ∧ Piece .s0 (.s2 v) e.does e.size cs
  | .one t, h, p, hp => by
    simp only [Exp.Fine] at h
    obtain ⟨cs, k, v, hr, _, hc⟩ := contexts_term t h.1 p hp
    refine ⟨cs, v, ?_, hc⟩
    simp only [Exp.text]
    rw [hr, contexts]
    simp
  | .bin t b r, h, p, hp => by
    simp only [Exp.Fine] at h
    obtain ⟨ht, hb, hr, _⟩ := h
    obtain ⟨cs, k, v, hrd, ha, hc⟩ := contexts_term t ht p hp
    obtain ⟨ds, v', hd, hpd⟩ := contexts_exp r hr (some (.oper (.bin b) [])) rfl
    have hs := hrd.comp (reads_sym (found_bin ha b))
    refine ⟨cs ++ [⟨.oper (.bin b) [], none⟩] ++ ds, v', ?_, ?_⟩
    · simp only [Exp.text]
      rw [hs r.text, hd]
      rfl
    · have h1 : Piece (.s2 v) .s0 [.bin b false] 1 [⟨.oper (.bin b) [], none⟩] :=
        Piece.one (k := .oper (.bin b) []) trivial rfl (by simp [next, hb]) (List.Perm.refl _)
      have := (hc.append h1 (by simp) (by simp)).append hpd (by simp) (by simp)
      simp only [Exp.does, Exp.size]
      rw [List.append_assoc] at this
      exact this

theorem contexts_term : ∀ (t : Term), t.Fine → ∀ p, preAllowed p = true →
    ∃ cs k v, Reads t.text p cs k ∧ After k ∧ Piece .s0 (.s2 v) t.does t.size cs
  | .mk none q s, h, p, hp => by
    simp only [Term.Fine] at h
    obtain ⟨hq, hs, hm⟩ := h
    obtain ⟨x, hx, bal, wk, iv⟩ := operand_prim q hq
    obtain ⟨ds, k, v, hr, ha, hd⟩ := contexts_sufs s hs (.operand x) (isVarCode x.code) trivial fun m => iv (hm m)
    refine ⟨[⟨.operand x, none⟩] ++ ds, k, v, ?_, ha, ?_⟩
    · intro r
      simp only [Term.text]
      exact ((reads_opd hx (before_of hp)).comp hr) r
    · have h1 : Piece .s0 (.s2 (isVarCode x.code)) q.does 1 [⟨.operand x, none⟩] := Piece.one (k := .operand x) bal rfl rfl wk
      simp only [Term.does, Term.size]
      exact h1.append hd (by simp) (by simp)
  | .mk (some u) q s, h, p, hp => by
    simp only [Term.Fine] at h
    obtain ⟨hq, hs, hm⟩ := h
    obtain ⟨x, hx, bal, wk, iv⟩ := operand_prim q hq
    obtain ⟨ds, k, v, hr, ha, hd⟩ := contexts_sufs s hs (.operand x) (isVarCode x.code) trivial fun m => iv (hm m)
    refine ⟨[⟨.oper (.pre u) [], none⟩] ++ ([⟨.operand x, none⟩] ++ ds), k, v, ?_, ha, ?_⟩
    · intro r
      simp only [Term.text]
      exact ((reads_sym (found_pre hp u)).comp
        ((reads_opd hx (p := some (.oper (.pre u) [])) trivial).comp hr)) r
    · have h0 : Piece .s0 .s1 [.un u] 1 [⟨.oper (.pre u) [], none⟩] :=
        Piece.one (k := .oper (.pre u) []) trivial rfl rfl (List.Perm.refl _)
      have h1 : Piece .s1 (.s2 (isVarCode x.code)) q.does 1 [⟨.operand x, none⟩] := Piece.one (k := .operand x) bal rfl rfl wk
      have := h0.append (h1.append hd (by simp) (by simp)) (by simp) (by simp)
      simp only [Term.does, Term.size]
      rw [show 2 + s.size = 1 + (1 + s.size) by omega]
      exact this

theorem operand_prim : ∀ (q : Prim), q.Fine →
    ∃ x, operand q.text = some x ∧ Bal x.code ∧ (work x.code).Perm q.does ∧ (q.isVar = true → isVarCode x.code = true)
  | .var n, _ => by
    simp only [Prim.text, Prim.does]
    exact ⟨_, by rw [operand], fun d => rfl, List.Perm.refl _, fun _ => rfl⟩
  | .lit n, _ => by
    simp only [Prim.text, Prim.does]
    exact ⟨_, by rw [operand], fun d => rfl, List.Perm.refl _, fun h => by simp [Prim.isVar] at h⟩
  | .paren e, h => by
    simp only [Prim.Fine] at h
    obtain ⟨cs, v, hc, hp⟩ := contexts_exp e h none rfl
    obtain ⟨code, h1, h2, h3⟩ := good_of h hc hp
    simp only [Prim.text, Prim.does]
    refine ⟨⟨code, e.text.firstTok, .result⟩, ?_, h2, h3, fun h => by simp [Prim.isVar] at h⟩
    rw [operand, e.text_not_nil, if_neg (by simp)]
    rw [compile] at h1
    rw [h1]
    rfl
  | .call f a, h => by
    simp only [Prim.Fine] at h
    obtain ⟨c, hc, hh, hw⟩ := arguments_ok a h.1
    simp only [Prim.text, Prim.does]
    refine ⟨⟨c ++ [.call f (a.len % 256)], a.text.lastTok, .result⟩, ?_, ?_, ?_, fun h => by simp [Prim.isVar] at h⟩
    · rw [operand, hc]
      rfl
    · intro d
      rw [height_append, hh d, Nat.mod_eq_of_lt (by omega)]
      simp only [Option.bind_some, height, I.eff]
      rw [if_pos (by omega)]
      simp only [Option.bind_some]
      congr 1
      omega
    · rw [work_append, Nat.mod_eq_of_lt (by omega)]
      exact hw.append (List.Perm.refl _)

theorem contexts_sufs : ∀ (s : Sufs), s.Fine → ∀ k v, After k → (s.isMember = true → v = true) →
    ∃ cs k' v', Reads s.text (some k) cs k' ∧ After k' ∧ Piece (.s2 v) (.s2 v') s.does s.size cs
  | .nil, _, k, v, ha, _ => by
    simp only [Sufs.does, Sufs.size]
    refine ⟨[], k, v, fun r => ?_, ha, Piece.nil _⟩
    simp [Sufs.text]
  | .simple q s, h, k, v, ha, _ => by
    simp only [Sufs.Fine] at h
    obtain ⟨cs, k', v', hr, ha', hc⟩ := contexts_sufs s h (.oper (.post q.op) []) true trivial fun _ => rfl
    refine ⟨[⟨.oper (.post q.op) [], none⟩] ++ cs, k', v', ?_, ha', ?_⟩
    · intro r
      simp only [Sufs.text]
      exact ((reads_sym (found_simple ha q)).comp hr) r
    · have h1 : Piece (.s2 v) (.s2 true) [.post q.op] 1 [⟨.oper (.post q.op) [], none⟩] :=
        Piece.one (k := .oper (.post q.op) []) (by cases q <;> rfl) rfl rfl (List.Perm.refl _)
      simp only [Sufs.does, Sufs.size]
      exact h1.append hc (by simp) (by simp)
  | .keyed q e s, h, k, v, ha, _ => by
    simp only [Sufs.Fine] at h
    obtain ⟨es, ve, hce, hpe⟩ := contexts_exp e h.1 none rfl
    obtain ⟨code, h1, h2, h3⟩ := good_of h.1 hce hpe
    obtain ⟨cs, k', v', hr, ha', hc⟩ := contexts_sufs s h.2 (.oper (.post q.op) code) true trivial fun _ => rfl
    refine ⟨⟨.oper (.post q.op) code, none⟩ :: cs, k', v', ?_, ha', ?_⟩
    · intro r
      simp only [Sufs.text]
      rw [contexts, q.keyed, e.text_not_nil, if_neg (by simp)]
      rw [compile] at h1
      rw [h1]
      have hk : keyCode q.op code = code := by
        unfold keyCode
        exact if_neg fun hh => bal_ne_nil h2 hh.2
      simp only [hk]
      rw [hr]
      cases contexts (some k') r <;> rfl
    · have h1 : Piece (.s2 v) (.s2 true) (e.does ++ [.post q.op]) 1 [⟨.oper (.post q.op) code, none⟩] :=
        Piece.one (k := .oper (.post q.op) code) (by show KeyOk _ _; unfold KeyOk; rw [q.keyed, if_pos rfl]; exact h2) rfl rfl
          (h3.append (List.Perm.refl _))
      simp only [Sufs.does, Sufs.size]
      exact h1.append hc (by simp) (by simp)
  | .empty s, h, k, v, ha, _ => by
    simp only [Sufs.Fine] at h
    obtain ⟨cs, k', v', hr, ha', hc⟩ := contexts_sufs s h (.oper (.post .index) [.lit 0]) true trivial fun _ => rfl
    refine ⟨⟨.oper (.post .index) [.lit 0], none⟩ :: cs, k', v', ?_, ha', ?_⟩
    · intro r
      simp only [Sufs.text]
      rw [contexts]
      rw [if_neg (by simp [Post.keyed])]
      have : (contexts none .nil).bind resolveExpression = some [] := by
        rw [contexts]; rfl
      rw [this]
      simp only [keyCode]
      rw [if_pos (by simp), hr]
      cases contexts (some k') r <;> rfl
    · have h1 : Piece (.s2 v) (.s2 true) [.lit 0, .post .index] 1 [⟨.oper (.post .index) [.lit 0], none⟩] :=
        Piece.one (k := .oper (.post .index) [.lit 0]) (by intro d; rfl) rfl rfl (List.Perm.refl _)
      simp only [Sufs.does, Sufs.size]
      exact h1.append hc (by simp) (by simp)
  | .member n s, h, k, v, ha, hv => by
    simp only [Sufs.Fine] at h
    have : v = true := hv rfl
    subst this
    obtain ⟨cs, k', v', hr, ha', hc⟩ := contexts_sufs s h (.operand ⟨[.var n], .name n, .label⟩) true trivial fun _ => rfl
    refine ⟨[⟨.oper (.bin .dot) [], none⟩, ⟨.operand ⟨[.var n], .name n, .label⟩, none⟩] ++ cs, k', v', ?_, ha', ?_⟩
    · intro r
      simp only [Sufs.text]
      exact ((reads_sym (found_bin ha .dot)).comp ((reads_opd (o := .var n) (x := ⟨[.var n], .name n, .label⟩)
        (p := some (.oper (.bin .dot) [])) (by rw [operand]) trivial).comp hr)) r
    · simp only [Sufs.does, Sufs.size]
      exact (Piece.dot n).append hc (by simp) (by simp)

theorem arguments_ok : ∀ (a : Argl), a.Fine →
    ∃ c, arguments a.text = some (c, a.len) ∧ (∀ d, height c d = some (d + a.len)) ∧ (work c).Perm a.does
  | .nil, _ => by
    simp only [Argl.text, Argl.does, Argl.len]
    exact ⟨[], by rw [arguments], fun d => rfl, List.Perm.refl _⟩
  | .cons e a, h => by
    simp only [Argl.Fine] at h
    obtain ⟨es, ve, hce, hpe⟩ := contexts_exp e h.1 none rfl
    obtain ⟨code, h1, h2, h3⟩ := good_of h.1 hce hpe
    obtain ⟨c, hc, hh, hw⟩ := arguments_ok a h.2
    simp only [Argl.text, Argl.does, Argl.len]
    refine ⟨derefArg code ++ c, ?_, fun d => ?_, ?_⟩
    · rw [compile] at h1
      rw [arguments, h1, hc]
      rfl
    · rw [height_append, bal_deref h2 d, Option.bind_some, hh]
      congr 1
      omega
    · rw [work_append, work_deref]
      exact h3.append hw
end

/-- **C73** Every expression of the grammar within the limits is accepted.  Its code never takes a value that is
not there and leaves exactly one value on whatever was on the stack; and it evaluates every operand and applies every
operator of the expression, at every depth of nesting, exactly once, and nothing else: apart from instructions
that move values, its instructions are those of the expression in some order. -/
theorem C73_one_value_partial (e : Exp) (h : e.Fine) :
    ∃ code, compile e.text = some code ∧ (∀ d, height code d = some (d + 1)) ∧
      (code.filterMap I.work).Perm e.does := by
  obtain ⟨cs, v, hc, hp⟩ := contexts_exp e h none rfl
  exact good_of h hc hp

/-- Calls in particular: each is made as often as it is written. -/
theorem C73_calls_partial (e : Exp) (h : e.Fine) (f n : Nat) :
    ∃ code, compile e.text = some code ∧ code.count (.call f n) = e.does.count (.call f n) := by
  obtain ⟨code, hc, hb, hw⟩ := C73_one_value_partial e h
  refine ⟨code, hc, ?_⟩
  rw [← hw.count_eq]
  clear hc hw hb
  induction code with
  | nil => rfl
  | cons i c ih =>
    cases i <;> simp_all [List.filterMap_cons, I.work, List.count_cons]

/-! ### Two operands in a row -/

def Opnd.plain : Opnd → Bool
  | .var _ | .lit _ => true
  | _ => false

def Opnd.isParen : Opnd → Bool
  | .paren _ => true
  | _ => false

/-- The expression starts with something other than an operator or a parenthesis. -/
def Items.startsOpd : Items → Bool
  | .opd o _ => !o.isParen
  | _ => false

mutual
/-- Somewhere a name or number is directly followed by a name, a number or a call. -/
def Items.adjacent : Items → Bool
  | .nil => false
  | .opd o r => (o.plain && r.startsOpd) || o.adjacent || r.adjacent
  | .sym _ r => r.adjacent
  | .key _ e r => e.adjacent || r.adjacent

def Opnd.adjacent : Opnd → Bool
  | .var _ | .lit _ => false
  | .paren e => e.adjacent
  | .call _ a => a.adjacent

def Args.adjacent : Args → Bool
  | .nil => false
  | .cons e a => e.adjacent || a.adjacent
end

mutual
theorem contexts_adjacent : ∀ (e : Items), e.adjacent = true → ∀ p, contexts p e = none
  | .nil, h, _ => by simp [Items.adjacent] at h
  | .opd o r, h, p => by
    rw [contexts]
    by_cases hr : refused p o = true
    · rw [if_pos hr]
    · rw [if_neg hr]
      simp only [Items.adjacent, Bool.or_eq_true, Bool.and_eq_true] at h
      rcases h with (⟨h1, h2⟩ | h) | h
      · cases r with
        | opd o' r' =>
          have hp : o'.isParen = false := by simpa [Items.startsOpd] using h2
          have key : ∀ x : Opd, (x.cls = .label ∨ x.cls = .literal) → contexts (some (.operand x)) (.opd o' r') = none := by
            intro x hx
            rw [contexts, if_pos]
            cases o' with
            | paren e => simp [Opnd.isParen] at hp
            | _ => rcases hx with hx | hx <;> simp [refused, prevPlain, hx]
          cases o with
          | var n => simp only [operand, key ⟨[.var n], .name n, .label⟩ (Or.inl rfl)]; rfl
          | lit n => simp only [operand, key ⟨[.lit n], .num n, .literal⟩ (Or.inr rfl)]; rfl
          | _ => simp [Opnd.plain] at h1
        | _ => simp [Items.startsOpd] at h2
      · rw [operand_adjacent o h]
      · cases operand o with
        | none => rfl
        | some x => simp only [contexts_adjacent r h]; rfl
  | .sym s r, h, p => by
    rw [contexts]
    have h' := contexts_adjacent r (by simpa [Items.adjacent] using h)
    cases operatorFound p s with
    | none => simp only [h']; split <;> rfl
    | some row => simp only [h']; rfl
  | .key q e r, h, p => by
    rw [contexts]
    simp only [Items.adjacent, Bool.or_eq_true] at h
    split
    · rfl
    · rcases h with h | h
      · rw [contexts_adjacent e h]; rfl
      · cases (contexts none e).bind resolveExpression with
        | none => rfl
        | some c => simp only [contexts_adjacent r h]; rfl

theorem operand_adjacent : ∀ (o : Opnd), o.adjacent = true → operand o = none
  | .var _, h => by simp [Opnd.adjacent] at h
  | .lit _, h => by simp [Opnd.adjacent] at h
  | .paren e, h => by
    rw [operand, contexts_adjacent e (by simpa [Opnd.adjacent] using h)]
    split <;> rfl
  | .call f a, h => by
    rw [operand, arguments_adjacent a (by simpa [Opnd.adjacent] using h)]; rfl

theorem arguments_adjacent : ∀ (a : Args), a.adjacent = true → arguments a = none
  | .nil, h => by simp [Args.adjacent] at h
  | .cons e a, h => by
    rw [arguments]
    simp only [Args.adjacent, Bool.or_eq_true] at h
    rcases h with h | h
    · rw [contexts_adjacent e h]; rfl
    · rw [arguments_adjacent a h]
      cases (contexts none e).bind resolveExpression <;> rfl
end

/-- C73: an expression in which, at any depth, a name or a number is directly followed by a name, a number or a call
does not compile. -/
theorem C73_adjacent_refused (e : Items) (h : e.adjacent = true) : compile e = none := by
  rw [compile, contexts_adjacent e h]; rfl

/-- `a * f( 2, b c )`. -/
example : (Items.opd (.var 0) (.sym .star (.opd (.call 9 (.cons (.opd (.lit 2) .nil)
    (.cons (.opd (.var 1) (.opd (.var 2) .nil)) .nil))) .nil))).adjacent = true := by decide

end Wrench.Full
