import Verif.Lemmas.StringRules

/-!
# Concrete models of the theory of strings

Objects of the other sorts are tagged with their sort; those of sort `RegLan` are languages.
-/

namespace Carcara

open Classical Computability Spec

namespace StringWitness

/-- Objects: a sort and a language. -/
abbrev Obj := Srt × Language Char

/-- The sort of a value. -/
def valSort : Val Obj → Option Srt
  | .bool _ => some .bool
  | .int _ => some .int
  | .real _ => some .real
  | .str _ => some .string
  | .bv w _ => some (.bv w)
  | .other (.bool, _) | .other (.int, _) | .other (.real, _) | .other (.string, _) | .other (.bv _, _) => none
  | .other (s, _) => some s

/-- Some value of each sort. -/
noncomputable def default : Srt → Val Obj
  | .bool => .bool false
  | .int => .int 0
  | .real => .real 0
  | .string => .str ""
  | .bv w => .bv w 0
  | s => .other (s, 0)

@[simp] theorem valSort_default (s : Srt) : valSort (default s) = some s := by cases s <;> rfl

/-- `v` if it has sort `s`, otherwise some value of sort `s`. -/
noncomputable def coerce (s : Srt) (v : Val Obj) : Val Obj := if valSort v = some s then v else default s

@[simp] theorem valSort_coerce (s : Srt) (v : Val Obj) : valSort (coerce s v) = some s := by unfold coerce; split <;> simp_all

/-- The language of a value. -/
def lang : Val Obj → Language Char
  | .other (_, l) => l
  | _ => 0

/-- A language as a value. -/
def re (l : Language Char) : Val Obj := .other (.regLan, l)

/-- The operators of the theory. -/
noncomputable def strOp : Op → List (Val Obj) → Val Obj
  | .strConcat, vs => strV (vs.map Val.chars).flatten
  | .strLen, [v] => .int v.chars.length
  | .substring, [v, .int m, .int n] => strV (substr v.chars m n)
  | .strInRe, [v, r] => Val.prop (v.chars ∈ lang r)
  | .strToRe, [v] => re {v.chars}
  | .reNone, [] => re 0
  | .reAll, [] => re ⊤
  | .reAllChar, [] => re {w | w.length = 1}
  | .reRange, [v, w] => re {x | ∃ c d e : Char, v.chars = [c] ∧ w.chars = [d] ∧ x = [e] ∧ c ≤ e ∧ e ≤ d}
  | .reConcat, rs => re (rs.map lang).prod
  | .reUnion, rs => re {w | ∃ r ∈ rs, w ∈ lang r}
  | .reInter, rs => re {w | ∀ r ∈ rs, w ∈ lang r}
  | .reStar, [r] => re (lang r)∗
  | _, _ => .bool false

/-- Sorts of a list of values. -/
def valSorts : List (Val Obj) → Option (List Srt)
  | [] => some []
  | v :: vs => match valSort v, valSorts vs with
    | some s, some ss => some (s :: ss)
    | _, _ => none

theorem valSorts_of {ss : List Srt} {vs : List (Val Obj)} (h : List.Forall₂ (fun s v => valSort v = some s) ss vs) : valSorts vs = some ss := by
  induction h with
  | nil => rfl
  | cons h _ ih => simp [valSorts, h, ih]

theorem exists_tuple (ss : List Srt) : ∃ vs, List.Forall₂ (fun s v => valSort v = some s) ss vs := by
  induction ss with
  | nil => exact ⟨[], .nil⟩
  | cons s ss ih => obtain ⟨vs, h⟩ := ih; exact ⟨_, .cons (valSort_default s) h⟩

/-- All operators: those of the theory have their meaning, the others some value of their sort. -/
noncomputable def opVal (o : Op) (vs : List (Val Obj)) : Val Obj :=
  match (valSorts vs).bind (opSort o) with
  | some r => coerce r (strOp o vs)
  | none => strOp o vs

theorem opVal_eq {o : Op} {vs : List (Val Obj)} (h : ∀ ss r, opSort o ss = some r → valSort (strOp o vs) = some r) : opVal o vs = strOp o vs := by
  unfold opVal
  split
  · next r hr =>
    obtain ⟨ss, -, hs⟩ := Option.bind_eq_some_iff.1 hr
    rw [coerce, if_pos (h ss r hs)]
  · rfl

/-- The interpretation. -/
noncomputable def interp : Interp where
  U := Obj
  dom s v := valSort v = some s
  dom_bool v := by
    cases v with
    | other u => obtain ⟨s, n⟩ := u; cases s <;> simp [valSort]
    | _ => simp [valSort]
  dom_int v := by
    cases v with
    | other u => obtain ⟨s, n⟩ := u; cases s <;> simp [valSort]
    | _ => simp [valSort]
  dom_real v := by
    cases v with
    | other u => obtain ⟨s, n⟩ := u; cases s <;> simp [valSort]
    | _ => simp [valSort]
  dom_string v := by
    cases v with
    | other u => obtain ⟨s, n⟩ := u; cases s <;> simp [valSort]
    | _ => simp [valSort]
  dom_bv w v := by
    cases v with
    | other u => obtain ⟨s, n⟩ := u; cases s <;> simp [valSort]
    | bv w' b =>
      simp only [valSort, Option.some.injEq, Srt.bv.injEq, Val.bv.injEq]
      constructor
      · rintro rfl; exact ⟨b, rfl, HEq.rfl⟩
      · rintro ⟨_, h, -⟩; exact h
    | _ => simp [valSort]
  dom_nonempty s := ⟨default s, valSort_default s⟩
  app f _ := match f with
    | .other (.fn _ r, _) => default r
    | _ => .bool false
  app_dom ss r f vs h _ := by
    cases f with
    | other u =>
      obtain ⟨s, n⟩ := u
      cases s <;> simp [valSort] at h
      simp [h.2]
    | _ => simp [valSort] at h
  op := opVal
  op_dom o ss r vs h hvs := by simp [opVal, valSorts_of hvs, h]
  pop _ _ _ := re 0
  pop_dom _ _ _ _ := rfl
  divZero _ := 0
  modZero _ := 0
  realDivZero _ := 0
  eps s P := if h : ∃ v, valSort v = some s ∧ P v then h.choose else default s
  eps_dom s P := by
    split
    · next h => exact h.choose_spec.1
    · simp
  eps_spec s P v hv hp := by
    rw [dif_pos ⟨v, hv, hp⟩]
    exact (⟨v, hv, hp⟩ : ∃ v, valSort v = some s ∧ P v).choose_spec.2
  lam ss f :=
    if h : ∃ r, ∀ vs, List.Forall₂ (fun s v => valSort v = some s) ss vs → valSort (f vs) = some r then
      .other (.fn ss h.choose, 0)
    else .bool false
  lam_dom ss r f h := by
    have hex : ∃ r, ∀ vs, List.Forall₂ (fun s v => valSort v = some s) ss vs → valSort (f vs) = some r := ⟨r, h⟩
    rw [dif_pos hex]
    obtain ⟨vs, hvs⟩ := exists_tuple ss
    have := hex.choose_spec vs hvs
    rw [h vs hvs] at this
    simp only [valSort, Option.some.injEq, Srt.fn.injEq, true_and]
    exact (Option.some.inj this).symm

/-- A model with chosen values of the variables. -/
noncomputable def model (E : String → Srt → Val Obj) : Model where
  I := interp
  env x s := coerce s (E x s)
  env_dom x s := valSort_coerce s (E x s)

theorem valSort_strV (w : List Char) : valSort (strV w) = some .string := rfl

theorem valSort_re (l : Language Char) : valSort (re l) = some .regLan := rfl

theorem op_concat (ws : List (List Char)) : opVal .strConcat (ws.map strV) = strV ws.flatten := by
  refine (opVal_eq fun ss r h => ?_).trans ?_
  · simp only [opSort] at h; split at h <;> cases h; exact valSort_strV _
  · simp [strOp, Function.comp_def]

theorem op_len (w : List Char) : opVal .strLen [strV w] = .int w.length := by
  refine (opVal_eq fun ss r h => ?_).trans ?_
  · simp only [opSort] at h; split at h <;> cases h; rfl
  · simp [strOp]

theorem op_substr (w : List Char) (m n : ℤ) : opVal .substring [strV w, .int m, .int n] = strV (substr w m n) := by
  refine (opVal_eq fun ss r h => ?_).trans ?_
  · simp only [opSort] at h; split at h <;> cases h; rfl
  · simp [strOp]

theorem op_inRe (w : List Char) (r : Val Obj) : opVal .strInRe [strV w, r] = Val.prop (w ∈ lang r) := by
  refine (opVal_eq fun ss r h => ?_).trans ?_
  · simp only [opSort] at h; split at h <;> cases h; rfl
  · simp [strOp]

theorem op_toRe (w : List Char) : opVal .strToRe [strV w] = re {w} := by
  refine (opVal_eq fun ss r h => ?_).trans ?_
  · simp only [opSort] at h; split at h <;> cases h; rfl
  · simp [strOp]

theorem op_none : opVal .reNone [] = re 0 := by
  refine opVal_eq fun ss r h => ?_
  simp only [opSort] at h; split at h <;> cases h; rfl

theorem op_all : opVal .reAll [] = re ⊤ := by
  refine opVal_eq fun ss r h => ?_
  simp only [opSort] at h; split at h <;> cases h; rfl

theorem op_allChar : opVal .reAllChar [] = re {w | w.length = 1} := by
  refine opVal_eq fun ss r h => ?_
  simp only [opSort] at h; split at h <;> cases h; rfl

theorem op_range (a b : List Char) : opVal .reRange [strV a, strV b] = re {x | ∃ c d e : Char, a = [c] ∧ b = [d] ∧ x = [e] ∧ c ≤ e ∧ e ≤ d} := by
  refine (opVal_eq fun ss r h => ?_).trans ?_
  · simp only [opSort] at h; split at h <;> cases h; rfl
  · simp [strOp]

theorem op_reConcat (rs : List (Val Obj)) : opVal .reConcat rs = re (rs.map lang).prod := by
  refine (opVal_eq fun ss r h => ?_).trans (by simp [strOp])
  simp only [opSort] at h; split at h <;> cases h; simp [strOp]; rfl

theorem op_union (rs : List (Val Obj)) : opVal .reUnion rs = re {w | ∃ r ∈ rs, w ∈ lang r} := by
  refine (opVal_eq fun ss r h => ?_).trans (by simp [strOp])
  simp only [opSort] at h; split at h <;> cases h; simp only [strOp]; rfl

theorem op_inter (rs : List (Val Obj)) : opVal .reInter rs = re {w | ∀ r ∈ rs, w ∈ lang r} := by
  refine (opVal_eq fun ss r h => ?_).trans (by simp [strOp])
  simp only [opSort] at h; split at h <;> cases h; simp only [strOp]; rfl

theorem op_star (r : Val Obj) : opVal .reStar [r] = re (lang r)∗ := by
  refine opVal_eq fun ss r h => ?_
  simp only [opSort] at h; split at h <;> cases h; rfl

/-- The interpretation is one of the theory of strings. -/
theorem theory : StringTheory interp lang where
  concat := op_concat
  len := op_len
  substr := op_substr
  inRe w r _ := op_inRe w r
  toRe w := congrArg lang (op_toRe w)
  none := congrArg lang op_none
  all := congrArg lang op_all
  allChar w := iff_of_eq (congrArg (w ∈ lang ·) op_allChar)
  range a b w := iff_of_eq (congrArg (w ∈ lang ·) (op_range a b))
  reConcat rs _ := congrArg lang (op_reConcat rs)
  union rs _ w := iff_of_eq (congrArg (w ∈ lang ·) (op_union rs))
  inter rs _ w := iff_of_eq (congrArg (w ∈ lang ·) (op_inter rs))
  star r _ := congrArg lang (op_star r)

theorem hasStrings (E : String → Srt → Val Obj) : Interp.HasStrings (model E).I := ⟨lang, theory⟩

theorem coerce_eq {s : Srt} {v : Val Obj} (h : valSort v = some s) : coerce s v = v := if_pos h

theorem val_string (E : String → Srt → Val Obj) {x : String} {w : List Char} (h : E x .string = strV w) :
    (model E).val (.var x .string) = strV w :=
  (congrArg (coerce .string) h).trans (coerce_eq (valSort_strV w))

theorem val_int (E : String → Srt → Val Obj) {x : String} {z : ℤ} (h : E x .int = .int z) : (model E).val (.var x .int) = .int z :=
  (congrArg (coerce .int) h).trans (coerce_eq rfl)

end StringWitness

end Carcara
