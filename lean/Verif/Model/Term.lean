/-!
# Terms

Model of `carcara/src/ast/term.rs`. `Rc<Term>` handles from one pool are modelled by the terms themselves
(pointer equality of hash-consed terms is structural equality, see property C27).
-/

namespace Carcara

/-- Model of `ast/term.rs:37-80 enum Sort`. Simplification: in the code a sort is itself a term
(`Term::Sort`), here sorts form their own type. `ParamSort`/`Var` (polymorphic sorts, only produced for RARE
rules and `declare-const` with `par`) and `Type` are left out. `fn args ret` is `Sort::Function(args ++ [ret])`. -/
inductive Srt where
  | bool | int | real | string | regLan | rareList
  | bv (w : Nat)
  | array (i e : Srt)
  | fn (args : List Srt) (ret : Srt)
  | atom (name : String) (args : List Srt)

/-- Model of `ast/term.rs:149-376 enum Operator` (same constructors, same order). -/
inductive Op where
  | tru | fls | not | implies | and | or | xor | equals | distinct | ite
  | add | sub | mult | intDiv | realDiv | mod | abs | lt | gt | le | ge | toReal | toInt | isInt
  | select | store
  | strConcat | strLen | strLessThan | strLessEq | charAt | substring | prefixOf | suffixOf | contains
  | indexOf | replace | replaceAll | replaceRe | replaceReAll | strIsDigit | strToCode | strFromCode
  | strToInt | strFromInt
  | strToRe | strInRe | reNone | reAll | reAllChar | reConcat | reUnion | reInter | reStar | reComp
  | reDiff | rePlus | reOpt | reRange
  | bvNot | bvNeg | bvAnd | bvOr | bvAdd | bvMul | bvUDiv | bvURem | bvShl | bvLShr | bvULt
  | bvConcat | bvNAnd | bvNOr | bvXor | bvXNor | bvComp | bvSub | bvSDiv | bvSRem | bvSMod | bvAShr
  | bvULe | bvUGt | bvUGe | bvSLt | bvSLe | bvSGt | bvSGe
  | ubvToInt | sbvToInt | bvPBbTerm | bvBbTerm | bvConst | bvSize
  | pow2 | isPow2 | log2
  | rareList | cl | delete
deriving DecidableEq, Repr

/-- Model of `ast/term.rs enum ParamOperator`. -/
inductive ParamOp where
  | bvExtract | bvBitOf | bvIntOf | zeroExtend | signExtend | rotateLeft | rotateRight | «repeat»
  | bvConst | intToBv | rePower | reLoop | arrayConst
deriving DecidableEq, Repr

/-- Model of `ast/term.rs:102-116 enum Constant`. -/
inductive Const where
  | int (z : Int) | real (q : Rat) | str (s : String) | bv (v : Int) (w : Nat)
deriving DecidableEq

/-- Model of `ast/term.rs:118-131 enum Binder`. -/
inductive Binder where
  | all | ex | choice | lambda
deriving DecidableEq, Repr

/-- Model of `ast/term.rs:7-35 enum Term` (without `Term::Sort`, see `Srt`). Binding lists of quantifiers
carry sorts, binding lists of `let` carry values, as in `ast/term.rs:138-146`. -/
inductive Term where
  | const (c : Const)
  | var (name : String) (sort : Srt)
  | app (f : Term) (args : List Term)
  | op (o : Op) (args : List Term)
  | binder (b : Binder) (bs : List (String × Srt)) (body : Term)
  | let_ (bs : List (String × Term)) (body : Term)
  | paramOp (o : ParamOp) (opArgs : List Term) (args : List Term)

/-! ## Structural equality (hand written: the types are nested) -/

mutual
/-- Structural equality test on sorts. -/
def Srt.beq : Srt → Srt → Bool
  | .bool, .bool | .int, .int | .real, .real | .string, .string | .regLan, .regLan
  | .rareList, .rareList => true
  | .bv w, .bv w' => w == w'
  | .array a b, .array a' b' => a.beq a' && b.beq b'
  | .fn as r, .fn as' r' => Srt.beqL as as' && r.beq r'
  | .atom n as, .atom n' as' => n == n' && Srt.beqL as as'
  | _, _ => false
/-- Structural equality test on lists of sorts. -/
def Srt.beqL : List Srt → List Srt → Bool
  | [], [] => true
  | a :: as, b :: bs => a.beq b && Srt.beqL as bs
  | _, _ => false
end

mutual
theorem Srt.beq_refl : (a : Srt) → a.beq a = true
  | .bool | .int | .real | .string | .regLan | .rareList => rfl
  | .bv w => by simp [Srt.beq]
  | .array a b => by simp [Srt.beq, Srt.beq_refl a, Srt.beq_refl b]
  | .fn as r => by simp [Srt.beq, Srt.beqL_refl as, Srt.beq_refl r]
  | .atom n as => by simp [Srt.beq, Srt.beqL_refl as]
theorem Srt.beqL_refl : (as : List Srt) → Srt.beqL as as = true
  | [] => rfl
  | a :: as => by simp [Srt.beqL, Srt.beq_refl a, Srt.beqL_refl as]
end

mutual
theorem Srt.eq_of_beq : (a b : Srt) → a.beq b = true → a = b
  | .bool, b, h | .int, b, h | .real, b, h | .string, b, h | .regLan, b, h | .rareList, b, h => by
      cases b <;> simp_all [Srt.beq]
  | .bv w, b, h => by cases b <;> simp_all [Srt.beq]
  | .array a b, c, h => by
      cases c with
      | array a' b' =>
        simp only [Srt.beq, Bool.and_eq_true] at h
        rw [Srt.eq_of_beq a a' h.1, Srt.eq_of_beq b b' h.2]
      | _ => simp [Srt.beq] at h
  | .fn as r, c, h => by
      cases c with
      | fn as' r' =>
        simp only [Srt.beq, Bool.and_eq_true] at h
        rw [Srt.eq_of_beqL as as' h.1, Srt.eq_of_beq r r' h.2]
      | _ => simp [Srt.beq] at h
  | .atom n as, c, h => by
      cases c with
      | atom n' as' =>
        simp only [Srt.beq, Bool.and_eq_true, beq_iff_eq] at h
        rw [h.1, Srt.eq_of_beqL as as' h.2]
      | _ => simp [Srt.beq] at h
theorem Srt.eq_of_beqL : (as bs : List Srt) → Srt.beqL as bs = true → as = bs
  | [], bs, h => by cases bs <;> simp_all [Srt.beqL]
  | a :: as, bs, h => by
      cases bs with
      | nil => simp [Srt.beqL] at h
      | cons b bs =>
        simp only [Srt.beqL, Bool.and_eq_true] at h
        rw [Srt.eq_of_beq a b h.1, Srt.eq_of_beqL as bs h.2]
end

instance : DecidableEq Srt := fun a b =>
  if h : a.beq b = true then .isTrue (Srt.eq_of_beq a b h)
  else .isFalse fun e => h (e ▸ Srt.beq_refl a)

mutual
/-- Structural equality test on terms. -/
def Term.beq : Term → Term → Bool
  | .const c, .const c' => decide (c = c')
  | .var n s, .var n' s' => n == n' && decide (s = s')
  | .app f as, .app f' as' => f.beq f' && Term.beqL as as'
  | .op o as, .op o' as' => decide (o = o') && Term.beqL as as'
  | .binder b bs t, .binder b' bs' t' => decide (b = b') && decide (bs = bs') && t.beq t'
  | .let_ bs t, .let_ bs' t' => Term.beqB bs bs' && t.beq t'
  | .paramOp o ps as, .paramOp o' ps' as' => decide (o = o') && Term.beqL ps ps' && Term.beqL as as'
  | _, _ => false
/-- Structural equality test on lists of terms. -/
def Term.beqL : List Term → List Term → Bool
  | [], [] => true
  | a :: as, b :: bs => a.beq b && Term.beqL as bs
  | _, _ => false
/-- Structural equality test on `let` bindings. -/
def Term.beqB : List (String × Term) → List (String × Term) → Bool
  | [], [] => true
  | (x, a) :: as, (y, b) :: bs => x == y && a.beq b && Term.beqB as bs
  | _, _ => false
end

mutual
theorem Term.beq_refl : (a : Term) → a.beq a = true
  | .const c => by simp [Term.beq]
  | .var n s => by simp [Term.beq]
  | .app f as => by simp [Term.beq, Term.beq_refl f, Term.beqL_refl as]
  | .op o as => by simp [Term.beq, Term.beqL_refl as]
  | .binder b bs t => by simp [Term.beq, Term.beq_refl t]
  | .let_ bs t => by simp [Term.beq, Term.beqB_refl bs, Term.beq_refl t]
  | .paramOp o ps as => by simp [Term.beq, Term.beqL_refl ps, Term.beqL_refl as]
theorem Term.beqL_refl : (as : List Term) → Term.beqL as as = true
  | [] => rfl
  | a :: as => by simp [Term.beqL, Term.beq_refl a, Term.beqL_refl as]
theorem Term.beqB_refl : (as : List (String × Term)) → Term.beqB as as = true
  | [] => rfl
  | (x, a) :: as => by simp [Term.beqB, Term.beq_refl a, Term.beqB_refl as]
end

mutual
theorem Term.eq_of_beq : (a b : Term) → a.beq b = true → a = b
  | .const c, b, h => by cases b <;> simp_all [Term.beq]
  | .var n s, b, h => by cases b <;> simp_all [Term.beq]
  | .app f as, b, h => by
      cases b with
      | app f' as' =>
        simp only [Term.beq, Bool.and_eq_true] at h
        rw [Term.eq_of_beq f f' h.1, Term.eq_of_beqL as as' h.2]
      | _ => simp [Term.beq] at h
  | .op o as, b, h => by
      cases b with
      | op o' as' =>
        simp only [Term.beq, Bool.and_eq_true, decide_eq_true_eq] at h
        rw [h.1, Term.eq_of_beqL as as' h.2]
      | _ => simp [Term.beq] at h
  | .binder k bs t, b, h => by
      cases b with
      | binder k' bs' t' =>
        simp only [Term.beq, Bool.and_eq_true, decide_eq_true_eq] at h
        rw [h.1.1, h.1.2, Term.eq_of_beq t t' h.2]
      | _ => simp [Term.beq] at h
  | .let_ bs t, b, h => by
      cases b with
      | let_ bs' t' =>
        simp only [Term.beq, Bool.and_eq_true] at h
        rw [Term.eq_of_beqB bs bs' h.1, Term.eq_of_beq t t' h.2]
      | _ => simp [Term.beq] at h
  | .paramOp o ps as, b, h => by
      cases b with
      | paramOp o' ps' as' =>
        simp only [Term.beq, Bool.and_eq_true, decide_eq_true_eq] at h
        rw [h.1.1, Term.eq_of_beqL ps ps' h.1.2, Term.eq_of_beqL as as' h.2]
      | _ => simp [Term.beq] at h
theorem Term.eq_of_beqL : (as bs : List Term) → Term.beqL as bs = true → as = bs
  | [], bs, h => by cases bs <;> simp_all [Term.beqL]
  | a :: as, bs, h => by
      cases bs with
      | nil => simp [Term.beqL] at h
      | cons b bs =>
        simp only [Term.beqL, Bool.and_eq_true] at h
        rw [Term.eq_of_beq a b h.1, Term.eq_of_beqL as bs h.2]
theorem Term.eq_of_beqB : (as bs : List (String × Term)) → Term.beqB as bs = true → as = bs
  | [], bs, h => by cases bs <;> simp_all [Term.beqB]
  | (x, a) :: as, bs, h => by
      cases bs with
      | nil => simp [Term.beqB] at h
      | cons b bs =>
        obtain ⟨y, b⟩ := b
        simp only [Term.beqB, Bool.and_eq_true, beq_iff_eq] at h
        rw [h.1.1, Term.eq_of_beq a b h.1.2, Term.eq_of_beqB as bs h.2]
end

instance : DecidableEq Term := fun a b =>
  if h : a.beq b = true then .isTrue (Term.eq_of_beq a b h)
  else .isFalse fun e => h (e ▸ Term.beq_refl a)

/-! ## Induction principle -/

/-- Structural induction on terms with the hypotheses for lists stated through membership. -/
theorem Term.ind {P : Term → Prop}
    (const : ∀ c, P (.const c))
    (var : ∀ n s, P (.var n s))
    (app : ∀ f as, P f → (∀ a ∈ as, P a) → P (.app f as))
    (op : ∀ o as, (∀ a ∈ as, P a) → P (.op o as))
    (binder : ∀ b bs t, P t → P (.binder b bs t))
    (let_ : ∀ bs t, (∀ b ∈ bs, P b.2) → P t → P (.let_ bs t))
    (paramOp : ∀ o ps as, (∀ a ∈ ps, P a) → (∀ a ∈ as, P a) → P (.paramOp o ps as))
    (t : Term) : P t := by
  refine Term.rec (motive_1 := P) (motive_2 := fun l => ∀ a ∈ l, P a)
    (motive_3 := fun l => ∀ b ∈ l, P b.2) (motive_4 := fun b => P b.2)
    const var app op binder let_ paramOp ?_ ?_ ?_ ?_ ?_ t
  · simp
  · intro a as ha has b hb
    rcases List.mem_cons.mp hb with rfl | hb
    · exact ha
    · exact has _ hb
  · simp
  · intro a as ha has b hb
    rcases List.mem_cons.mp hb with rfl | hb
    · exact ha
    · exact has _ hb
  · intro x t ht
    exact ht

/-! ## Builders and accessors used throughout the checker -/

namespace Term

/-- `build_term!(pool, true)`. -/
abbrev tru : Term := .op .tru []
/-- `build_term!(pool, false)`. -/
abbrev fls : Term := .op .fls []
/-- `build_term!(pool, (not {t}))`. -/
abbrev neg (t : Term) : Term := .op .not [t]
/-- `build_term!(pool, (= {a} {b}))`. -/
abbrev eq (a b : Term) : Term := .op .equals [a, b]

/-- Model of `ast/term.rs Rc::remove_negation`: strips one leading negation. -/
def removeNegation : Term → Option Term
  | .op .not [t] => some t
  | _ => none

/-- Model of `ast/term.rs Rc::remove_all_negations`: strips all leading negations and counts them. The
`u32` counter of the code is a `Nat` here. -/
def removeAllNegations : Term → Nat × Term
  | .op .not [t] => let (n, u) := removeAllNegations t; (n + 1, u)
  | t => (0, t)

/-- Model of `ast/term.rs Rc::remove_all_negations_with_polarity`. -/
def removeAllNegationsPol (t : Term) : Bool × Term :=
  let (n, u) := t.removeAllNegations
  (n % 2 == 0, u)

/-- Model of `ast/term.rs Term::is_bool_true`. -/
def isBoolTrue (t : Term) : Bool := t = tru
/-- Model of `ast/term.rs Term::is_bool_false`. -/
def isBoolFalse (t : Term) : Bool := t = fls

end Term

end Carcara
