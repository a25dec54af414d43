import Verif.Prog.Script

/-
C114: a host runs a script of integers and then calls its functions, any number of times.

Simplifications: names are left out, a function is called by its number (finding it by its name is C29); the functions
do not call each other.
-/
namespace Wrench.Prog
open Wrench.Vm Wrench.Vm.Jump Wrench.Peep Wrench.Whole Wrench.Ops

/-- A function of the source: the number of parameters, of further variables, the body, and the table of names in
front of its code if it is exported (link.cpp 222-240). -/
structure Fn where
  a : Nat
  l : Nat
  body : IS
  names : List Byte

/-- A function in the image: `functionOffset`, `arguments`, `frameSpaceNeeded` (link.cpp 98-132). -/
structure Sig where
  start : Nat
  a : Nat
  l : Nat

/-- The linked code, and where the top-level code starts. -/
structure Image where
  code : List Byte
  start : Nat
  fns : List Sig

/-- The functions behind `code`, link.cpp 216-297; `functionOffset` has 16 bits. -/
def addFns (neg : Word32 → Word32) : List Byte → List Fn → Option (List Byte × List Sig)
  | code, [] => some (code, [])
  | code, f :: fs =>
    (compileFn neg f.body).bind fun U =>
    (addFns neg (code ++ f.names ++ U.all) fs).map fun r => (r.1, ⟨(code ++ f.names).length % 65536, f.a, f.l⟩ :: r.2)

/-- `link`: the header, the top-level code, the functions. -/
def linkAll (neg : Word32 → Word32) (header : List Byte) (s : IS) (fs : List Fn) : Option Image :=
  (compileScript neg s).bind fun U =>
  (addFns neg (header ++ U.all) fs).map fun r => ⟨r.1, header.length, r.2⟩

/-- `wr_executeContext` on the image, see `runScript`. -/
def Image.run (E : Env) (img : Image) (n : Nat) (m : M) : Option Got :=
  (bsteps E img.code n (img.start, m)).bind fun p =>
    if opAt img.code p.1 = some .GlobalStop then
      match deref 2 p.2.σ (.cell m.top) with
      | .ok (σ, l) => some ⟨σ.cell l, p.1 + 1, p.2⟩
      | _ => none
    else none

/-- The host calls a function, see `runFn`; its `Return` goes to `stopLocation` (vm.cpp 725), where `Stop` must
be. -/
def Image.call (E : Env) (img : Image) (stop base n start : Nat) (m : M) : Option (Val × St) :=
  (bsteps E img.code n (start, m)).bind fun p =>
    if opAt img.code stop = some .Stop then
      match opAt img.code p.1 with
      | some .Return => leave base m p.2
      | some .ReturnZero => leave base m { p.2 with σ := p.2.σ.set (.cell p.2.top) (.int 0), top := p.2.top + 1 }
      | _ => none
    else none

/-- A call by the host: the function, the arguments, and what the first of the further variables happens to hold. -/
structure Call where
  f : Nat
  argv : List Word32
  junk : Word32

/-- The calls one after the other; `ns` are the numbers of instructions. -/
def Image.calls (E : Env) (img : Image) (stop base gb ng : Nat) : St → List Call → List Nat → Option (List Val × St)
  | σ, [], _ => some ([], σ)
  | _, _ :: _, [] => none
  | σ, c :: cs, n :: ns =>
    (img.fns[c.f]?).bind fun s =>
    (img.call E stop base n s.start (enterFn σ base gb ng s.a s.l c.argv c.junk)).bind fun r =>
    (img.calls E stop base gb ng r.2 cs ns).map fun q => (r.1 :: q.1, q.2)

/-- `wr_run` and then the calls: everything the host gets, and the memory. -/
def Image.session (E : Env) (img : Image) (n : Nat) (ns : List Nat) (m : M) (cs : List Call) : Option (List Val × St) :=
  (img.run E n m).bind fun g =>
  (img.calls E g.stop m.top m.gb m.ng g.m.σ cs ns).map fun r => (g.val :: r.1, r.2)

/-! ### What the source says -/

/-- The value of a body and the variables behind it.  `none`: not after `n` steps, undefined, or the body ends without
`return` although its code ends in one (C66). -/
def IS.result (s : IS) (n : Nat) (ρ : Vars) : Option (Word32 × Vars) :=
  match Flow.exec n s.means (some ρ) with
  | some (.nrm, some ρ') => if Flow.lastRet s.means then none else some (0, ρ')
  | some (.ret (some w), some ρ') => some (w, ρ')
  | _ => none

/-- The values of the calls and the globals behind them. -/
def results (fs : List Fn) (n : Nat) : (Byte → Option Word32) → List Call → Option (List Word32 × (Byte → Option Word32))
  | g, [] => some ([], g)
  | g, c :: cs =>
    (fs[c.f]?).bind fun f =>
    (f.body.result n (fnVars g f.a f.l c.argv c.junk)).bind fun r =>
    (results fs n (r.2 .G) cs).map fun q => (r.1 :: q.1, q.2)

/-! ### Code in front -/

theorem getElem_behind (pre all : List Byte) (p : Nat) : (pre ++ all)[pre.length + p]? = all[p]? := by
  rw [List.getElem?_append_right (by omega), show pre.length + p - pre.length = p by omega]

theorem opAt_behind (pre all : List Byte) (p : Nat) : opAt (pre ++ all) (pre.length + p) = opAt all p := by
  unfold opAt
  rw [getElem_behind]

theorem branch_behind (pre : List Byte) {all : List Byte} {p : Nat} {z : Int} (h : branch all p true = some z) :
    branch (pre ++ all) (pre.length + p) true = some ((pre.length : Int) + z) := by
  unfold branch at h ⊢
  rw [getElem_behind]
  cases hb : (all[p]?).bind Op.decode with
  | none => rw [hb] at h; cases h
  | some o =>
    rw [hb] at h
    dsimp only at h ⊢
    cases hv : vmBranch o with
    | none => rw [hv] at h; cases h
    | some kw =>
      obtain ⟨k, w⟩ := kw
      rw [hv] at h
      dsimp only at h ⊢
      rw [if_pos rfl] at h ⊢
      rw [show pre.length + p + 1 + k = pre.length + (p + 1 + k) by omega]
      cases w with
      | w8 =>
        dsimp only at h ⊢
        simp only [read8, getElem_behind, Option.map_eq_some_iff] at h ⊢
        obtain ⟨b, h1, h2⟩ := h
        exact ⟨b, h1, by omega⟩
      | w16 =>
        dsimp only at h ⊢
        have hr : read16 (pre ++ all) (pre.length + (p + 1 + k)) = read16 all (p + 1 + k) := by
          simp only [read16, getElem_behind, Nat.add_assoc]
        rw [hr]
        rw [Option.map_eq_some_iff] at h ⊢
        obtain ⟨b, h1, h2⟩ := h
        exact ⟨b, h1, by omega⟩

theorem bstep_behind (pre : List Byte) {E : Env} {all : List Byte} {p q : Nat} {m m' : M}
    (h : bstep E all (p, m) = some (q, m')) : bstep E (pre ++ all) (pre.length + p, m) = some (pre.length + q, m') := by
  unfold bstep at h ⊢
  dsimp only at h ⊢
  rw [opAt_behind]
  have key : ∀ (m1 : M), (match branch all p true with
        | some (.ofNat q) => some (q, m1)
        | _ => none) = some (q, m') →
      (match branch (pre ++ all) (pre.length + p) true with
        | some (.ofNat q) => some (q, m1)
        | _ => none) = some (pre.length + q, m') := by
    intro m1 h
    cases hb : branch all p true with
    | none => rw [hb] at h; cases h
    | some z =>
      rw [hb] at h
      rw [branch_behind pre hb]
      cases z with
      | ofNat z =>
        dsimp only at h
        cases h
        rfl
      | negSucc z => cases h
  cases ho : opAt all p with
  | none => rw [ho] at h; cases h
  | some o =>
    rw [ho] at h
    dsimp only at h ⊢
    by_cases hj : testOf o = .RelativeJump
    · rw [if_pos hj] at h ⊢
      exact key m h
    · rw [if_neg hj] at h ⊢
      cases ha : act (testOf o) with
      | none => rw [ha] at h; cases h
      | some a =>
        rw [ha] at h
        dsimp only at h ⊢
        by_cases hl : all.length < p + 1 + dlen a
        · rw [if_pos hl] at h; cases h
        · rw [if_neg hl] at h
          rw [if_neg (by rw [List.length_append]; omega)]
          have hd : (pre ++ all).drop (pre.length + p + 1) = all.drop (p + 1) := by
            rw [Nat.add_assoc, List.drop_append]
            simp
          rw [hd]
          generalize Peep.exec E 2 a ((all.drop (p + 1)).take (dlen a)) m = r at h ⊢
          match r with
          | .ok (.next m1) =>
            dsimp only at h ⊢
            cases h
            simp only [Nat.add_assoc]
          | .ok (.jump m1) => exact key m1 h
          | .ub => cases h
          | .oof => cases h

theorem bsteps_behind (pre : List Byte) {E : Env} {all : List Byte} {n p q : Nat} {m m' : M}
    (h : bsteps E all n (p, m) = some (q, m')) : bsteps E (pre ++ all) n (pre.length + p, m) = some (pre.length + q, m') := by
  induction n generalizing p m with
  | zero => cases h; rfl
  | succ n ih =>
    simp only [bsteps, Option.bind_eq_some_iff] at h ⊢
    obtain ⟨⟨p1, m1⟩, h1, h2⟩ := h
    exact ⟨_, bstep_behind pre h1, ih h2⟩

/-! ### The image -/

theorem addFns_spec {neg : Word32 → Word32} {fs : List Fn} {code all : List Byte} {sigs : List Sig}
    (h : addFns neg code fs = some (all, sigs)) : (∃ post, all = code ++ post) ∧
    ∀ (i : Nat) (f : Fn), fs[i]? = some f → ∃ U pre post, compileFn neg f.body = some U ∧ all = pre ++ (U.all ++ post) ∧
      sigs[i]? = some ⟨pre.length % 65536, f.a, f.l⟩ := by
  induction fs generalizing code sigs with
  | nil =>
    cases h
    exact ⟨⟨[], by simp⟩, by intro i f hf; cases hf⟩
  | cons f fs ih =>
    simp only [addFns, Option.bind_eq_some_iff, Option.map_eq_some_iff, Prod.mk.injEq] at h
    obtain ⟨U, hU, ⟨all', sigs'⟩, h1, rfl, rfl⟩ := h
    obtain ⟨⟨post, hp⟩, hi⟩ := ih h1
    dsimp only at hp hi ⊢
    refine ⟨⟨f.names ++ U.all ++ post, by simp [hp]⟩, ?_⟩
    intro i g hg
    cases i with
    | zero => cases hg; exact ⟨U, code ++ f.names, post, hU, by simp [hp], rfl⟩
    | succ i => exact hi i g hg

theorem call_of_runFn {E : Env} {img : Image} {pre all post : List Byte} (hi : img.code = pre ++ (all ++ post))
    {stop base n : Nat} (hs : opAt img.code stop = some .Stop) {m : M} {r : Val × St} (h : runFn E all base n m = some r) :
    img.call E stop base n pre.length m = some r := by
  unfold runFn at h
  unfold Image.call
  rw [Option.bind_eq_some_iff] at h ⊢
  obtain ⟨⟨p, m1⟩, h1, h2⟩ := h
  refine ⟨(pre.length + p, m1), by rw [hi]; exact bsteps_behind pre (bsteps_append h1), ?_⟩
  rw [if_pos hs]
  dsimp only at h2 ⊢
  cases ho : opAt all p with
  | none => rw [ho] at h2; cases h2
  | some o => rw [hi, opAt_behind, opAt_append ho]; rw [ho] at h2; exact h2

theorem IS.result_exec {s : IS} {n : Nat} {ρ ρ' : Vars} {w : Word32} (h : s.result n ρ = some (w, ρ')) :
    ∃ o, Flow.exec n s.means (some ρ) = some (o, some ρ') ∧ Flow.valueOf (some 0) o = some (some w) ∧
      (Flow.lastRet s.means = true → o ≠ .nrm) := by
  unfold IS.result at h
  match hx : Flow.exec n s.means (some ρ), h with
  | some (.nrm, some ρ1), h =>
    dsimp only at h
    by_cases hl : Flow.lastRet s.means = true
    · rw [if_pos hl] at h; cases h
    · rw [if_neg hl] at h
      cases h
      exact ⟨_, rfl, rfl, fun h => absurd h hl⟩
  | some (.ret (some v), some ρ1), h =>
    cases h
    exact ⟨_, rfl, rfl, fun _ h => by cases h⟩

/-- The calls. -/
theorem calls_run {neg : Word32 → Word32} {fs : List Fn} {img : Image} {code : List Byte}
    (hc : addFns neg code fs = some (img.code, img.fns)) (hsize : img.code.length < 65536)
    (hg : ∀ f ∈ fs, f.body.good neg ∧ 1 + f.a + f.l < 256) {E : Env} {stop base gb ng : Nat}
    (hs : opAt img.code stop = some .Stop) (hb : gb + ng ≤ base) {n : Nat} {cs : List Call} {σ : St}
    {g g' : Byte → Option Word32} {ws : List Word32} (hG : Globals g gb ng σ) (hr : results fs n g cs = some (ws, g')) :
    ∃ ns σ', img.calls E stop base gb ng σ cs ns = some (ws.map .int, σ') ∧ Globals g' gb ng σ' ∧
      ∀ j, j < base → ¬ (gb ≤ j ∧ j < gb + ng) → σ'.cell (.cell j) = σ.cell (.cell j) := by
  induction cs generalizing σ g ws with
  | nil =>
    cases hr
    exact ⟨[], σ, rfl, hG, fun _ _ _ => rfl⟩
  | cons c cs ih =>
    simp only [results, Option.bind_eq_some_iff, Option.map_eq_some_iff, Prod.mk.injEq] at hr
    obtain ⟨f, hf, ⟨w, ρ'⟩, h1, ⟨ws', g1⟩, h2, rfl, rfl⟩ := hr
    obtain ⟨o, h3, h4, h5⟩ := IS.result_exec h1
    obtain ⟨U, pre, post, h6, h7, h8⟩ := (addFns_spec hc).2 c.f f hf
    obtain ⟨g2, g3⟩ := hg f (List.mem_of_getElem? hf)
    obtain ⟨N, σ1, e1, e2, e3⟩ := C113_function_partial g2 h6 (base := base) (by omega) hb hG h3 h4 h5 E
    have hpre : pre.length % 65536 = pre.length := by
      rw [h7, List.length_append] at hsize
      exact Nat.mod_eq_of_lt (by omega)
    rw [hpre] at h8
    obtain ⟨ns, σ', e4, e5, e6⟩ := ih e2 h2
    refine ⟨N :: ns, σ', ?_, e5, fun j hj hn => by rw [e6 j hj hn, e3 j hj hn]⟩
    unfold Image.calls
    rw [h8, Option.bind_some]
    dsimp only
    rw [call_of_runFn h7 hs e1, Option.bind_some, e4]
    rfl

/-- The script in the image. -/
theorem image_run {neg : Word32 → Word32} {header : List Byte} {s : IS} {fs : List Fn} {img : Image}
    (hg : s.good neg) (hs : Flow.Straight s.means) (hc : linkAll neg header s fs = some img) {n : Nat} {ρ ρ' : Vars}
    {w : Word32} (hr : s.result n ρ = some (w, ρ')) (E : Env) {m : M} (hm : Ready ρ m) :
    ∃ N stop m' code sigs, img.run E N m = some ⟨.int w, stop, m'⟩ ∧ img = ⟨code, header.length, sigs⟩ ∧
      (∃ c, addFns neg c fs = some (code, sigs)) ∧ opAt code stop = some .Stop ∧ Globals (ρ' .G) m.gb m.ng m'.σ := by
  unfold linkAll at hc
  simp only [Option.bind_eq_some_iff, Option.map_eq_some_iff] at hc
  obtain ⟨U, hU, ⟨code, sigs⟩, h1, rfl⟩ := hc
  obtain ⟨o, h2, h3, h4⟩ := IS.result_exec hr
  obtain ⟨N, stop, m', h5, h6, h7, h8⟩ := C113_script_partial hg hU h2 h3 h4 E hm
  obtain ⟨-, h8⟩ := h8 hs
  obtain ⟨⟨post, hp⟩, -⟩ := addFns_spec h1
  rw [List.append_assoc] at hp
  have hstop : opAt code (header.length + stop) = some .Stop := by rw [hp, opAt_behind, opAt_append h8]
  have hrun : Image.run E ⟨code, header.length, sigs⟩ N m = some ⟨.int w, header.length + stop, m'⟩ := by
    unfold runScript at h5
    rw [Option.bind_eq_some_iff] at h5
    obtain ⟨⟨p, m1⟩, e1, e2⟩ := h5
    dsimp only at e2
    by_cases ho : opAt U.all p = some .GlobalStop
    · rw [if_pos ho] at e2
      have e3 := bsteps_behind header (bsteps_append (more := post) e1)
      unfold Image.run
      rw [Nat.add_zero] at e3
      dsimp only
      rw [hp, e3, Option.bind_some]
      dsimp only
      rw [opAt_behind, opAt_append ho, if_pos rfl]
      cases hd : deref 2 m1.σ (.cell m.top) with
      | ok r =>
        obtain ⟨σ, l⟩ := r
        rw [hd] at e2
        dsimp only at e2 ⊢
        simp only [Option.some.injEq, Got.mk.injEq] at e2
        obtain ⟨e4, rfl, rfl⟩ := e2
        rw [e4, Nat.add_assoc]
      | ub => rw [hd] at e2; cases e2
      | oof => rw [hd] at e2; cases e2
    · rw [if_neg ho] at e2
      cases e2
  exact ⟨N, _, m', code, sigs, hrun, rfl, ⟨_, h1⟩, hstop, h7⟩

/-- **C114** (partial).  A host runs a script of integers and then calls its functions in any order, any number of
times, with any arguments: every value it gets is the one the source says, globals carried from one to the next.
`hs`: no `return` before the end of the script (C67).  `hsize`: offsets have 16 bits. -/
theorem C114_session_partial {neg : Word32 → Word32} {header : List Byte} {s : IS} {fs : List Fn} {img : Image}
    (hg : s.good neg) (hgf : ∀ f ∈ fs, f.body.good neg ∧ 1 + f.a + f.l < 256) (hs : Flow.Straight s.means)
    (hc : linkAll neg header s fs = some img) (hsize : img.code.length < 65536) {n : Nat} {ρ ρ' : Vars} {w : Word32}
    (hr : s.result n ρ = some (w, ρ')) {cs : List Call} {ws : List Word32} {g : Byte → Option Word32}
    (hrs : results fs n (ρ' .G) cs = some (ws, g)) (E : Env) {m : M} (hm : Ready ρ m) :
    ∃ n0 ns σ', img.session E n0 ns m cs = some (.int w :: ws.map .int, σ') ∧ Globals g m.gb m.ng σ' := by
  obtain ⟨N, stop, m', code, sigs, hrun, rfl, ⟨c, h1⟩, hstop, h7⟩ := image_run hg hs hc hr E hm
  obtain ⟨ns, σ', e1, e2, -⟩ := calls_run (img := ⟨code, header.length, sigs⟩) h1 hsize hgf hstop hm.start.globals h7 hrs (E := E)
  refine ⟨N, ns, σ', ?_, e2⟩
  unfold Image.session
  rw [hrun, Option.bind_some]
  dsimp only
  rw [e1]
  rfl

end Wrench.Prog
