import Verif.Lemmas.Strings
import Verif.Lemmas.FreeVarsModel

/-! # Rules for strings: values of the terms the rules build, and common prefixes and suffixes -/

namespace Carcara

open Spec

/-- The characters of a string; of no other value. -/
def Val.chars {U : Type} : Val U → List Char
  | .str s => s.toList
  | _ => []

@[simp] theorem chars_strV {U : Type} (w : List Char) : (strV w : Val U).chars = w := by simp [strV, Val.chars]

/-- The string a term denotes. -/
noncomputable def Model.str (M : Model) (t : Term) : List Char := (M.val t).chars

/-- The string a list of terms denotes. -/
noncomputable def Model.strs (M : Model) (ts : List Term) : List Char := (ts.map M.str).flatten

section
variable {M : Model} {L : Val M.I.U → Language Char}

@[simp] theorem strs_nil : M.strs [] = [] := rfl
@[simp] theorem strs_cons {t : Term} {ts : List Term} : M.strs (t :: ts) = M.str t ++ M.strs ts := by simp [Model.strs]
@[simp] theorem strs_append {ts us : List Term} : M.strs (ts ++ us) = M.strs ts ++ M.strs us := by simp [Model.strs]

theorem str_of_val {t : Term} {w : List Char} (h : M.val t = strV w) : M.str t = w := by simp [Model.str, h]

theorem val_str {t : Term} (ht : sortOf t = some .string) : M.val t = strV (M.str t) := by
  obtain ⟨w, hw⟩ := dom_strV.1 (eval_dom t ht M.env_dom)
  have : M.val t = strV w := hw
  rw [str_of_val this, this]

theorem map_strV_chars : ∀ {ts : List Term} {ws : List (List Char)}, ts.map M.val = ws.map strV → M.strs ts = ws.flatten
  | [], [], _ => rfl
  | [], _ :: _, h => by simp at h
  | _ :: _, [], h => by simp at h
  | t :: ts, w :: ws, h => by
    simp only [List.map_cons, List.cons.injEq] at h
    rw [strs_cons, str_of_val h.1, map_strV_chars h.2, List.flatten_cons]

theorem flattenStr_other {t : Term} (h : sortOf t ≠ some .string) (hs : (sortOf t).isSome = true) : flattenStr t = [t] := by
  cases t with
  | const c =>
    cases c with
    | str s => exact absurd rfl h
    | _ => rfl
  | op o as =>
    by_cases ho : o = .strConcat
    · subst ho
      obtain ⟨s, e⟩ := Option.isSome_iff_exists.1 hs
      rw [(sort_strConcat e).1] at e
      exact absurd e h
    · exact flattenStr_op ho
  | _ => rfl

theorem str_flatten (hS : StringTheory M.I L) {t : Term} (ht : (sortOf t).isSome = true) : M.strs (flattenStr t) = M.str t := by
  by_cases h : sortOf t = some .string
  · obtain ⟨ws, h1, h2⟩ := flatOK_of_sort hS M.env_dom t h
    rw [map_strV_chars h1, str_of_val h2]
  · simp [flattenStr_other h ht]

theorem val_strConcat (hS : StringTheory M.I L) {ts : List Term} (h : ∀ t ∈ ts, ∃ w, M.val t = strV w) :
    M.val (.op .strConcat ts) = strV (M.strs ts) := by
  have : ts.map M.val = (ts.map M.str).map strV := by
    rw [List.map_map]
    refine List.map_congr_left fun t ht => ?_
    obtain ⟨w, hw⟩ := h t ht
    simp [str_of_val hw, hw]
  rw [Model.val_op, this, evalOp_strConcat hS]; rfl

theorem val_strConcat2 (hS : StringTheory M.I L) {a b : Term} {v w : List Char} (ha : M.val a = strV v) (hb : M.val b = strV w) :
    M.val (.op .strConcat [a, b]) = strV (v ++ w) := by
  rw [val_strConcat hS (by simp [ha, hb])]; simp [str_of_val ha, str_of_val hb]

theorem val_emptyStr : M.val emptyStr = strV [] := rfl

theorem val_charTerm (c : Char) : M.val (charTerm c) = strV [c] := rfl

theorem val_concatTerm (hS : StringTheory M.I L) {ts : List Term} (h : ∀ t ∈ ts, sortOf t = some .string) :
    M.val (concatTerm ts) = strV (M.strs ts) := by
  unfold concatTerm
  split
  · rfl
  · next t => rw [val_str (h t (by simp))]; simp
  · exact val_strConcat hS fun t ht => ⟨_, val_str (h t ht)⟩

theorem val_strLen (hS : StringTheory M.I L) {t : Term} {w : List Char} (h : M.val t = strV w) : M.val (strLenOf t) = .int w.length := by
  rw [strLenOf, Model.val_op, List.map_cons, h]; exact hS.len w

theorem val_intTerm (z : ℤ) : M.val (intTerm z) = .int z := rfl

theorem val_minus {a b : Term} {m n : ℤ} (ha : M.val a = .int m) (hb : M.val b = .int n) : M.val (.op .sub [a, b]) = .int (m - n) := by
  rw [Model.val_op, List.map_cons, List.map_cons, ha, hb]
  simp [evalOp, stdOp, stdSub, Val.asInts, subL]

theorem val_substr (hS : StringTheory M.I L) {t a b : Term} {w : List Char} {m n : ℤ} (ht : M.val t = strV w) (ha : M.val a = .int m)
    (hb : M.val b = .int n) : M.val (.op .substring [t, a, b]) = strV (substr w m n) := by
  rw [Model.val_op, List.map_cons, List.map_cons, List.map_cons, ht, ha, hb]; exact hS.substr w m n

theorem holds_cmp {o : Op} {r : ℝ → ℝ → Prop} (ho : ∀ I vs, stdOp I o vs = stdCmp r vs) {a b : Term} {m n : ℤ}
    (ha : M.val a = .int m) (hb : M.val b = .int n) : M.Holds (.op o [a, b]) ↔ r m n := by
  rw [Model.Holds, Model.val_op, List.map_cons, List.map_cons, ha, hb]
  simp [evalOp, ho, stdCmp, Val.asNums, Val.num, Sem.chain]

theorem holds_gt {a b : Term} {m n : ℤ} (ha : M.val a = .int m) (hb : M.val b = .int n) : M.Holds (.op .gt [a, b]) ↔ m > n :=
  (holds_cmp (fun _ _ => rfl) ha hb).trans (by simp)

theorem holds_ge {a b : Term} {m n : ℤ} (ha : M.val a = .int m) (hb : M.val b = .int n) : M.Holds (.op .ge [a, b]) ↔ m ≥ n :=
  (holds_cmp (fun _ _ => rfl) ha hb).trans (by simp)

theorem holds_lt {a b : Term} {m n : ℤ} (ha : M.val a = .int m) (hb : M.val b = .int n) : M.Holds (.op .lt [a, b]) ↔ m < n :=
  (holds_cmp (fun _ _ => rfl) ha hb).trans (by simp)

theorem holds_le {a b : Term} {m n : ℤ} (ha : M.val a = .int m) (hb : M.val b = .int n) : M.Holds (.op .le [a, b]) ↔ m ≤ n :=
  (holds_cmp (fun _ _ => rfl) ha hb).trans (by simp)

theorem holds_strInRe (hS : StringTheory M.I L) {t r : Term} {w : List Char} (ht : M.val t = strV w) (hr : sortOf r = some .regLan) :
    M.Holds (.op .strInRe [t, r]) ↔ w ∈ L (M.val r) := by
  rw [Model.Holds, Model.val_op, List.map_cons, List.map_cons, ht]
  have : evalOp M.I .strInRe [strV w, M.val r] = Val.prop (w ∈ L (M.val r)) := hS.inRe w _ (eval_dom r hr M.env_dom)
  rw [List.map_nil, this, Val.T_prop]

/-! ## The terms the rules build -/

theorem substr_prefix (w : List Char) (n : ℤ) : substr w 0 n = w.take n.toNat := by
  unfold substr
  split
  · simp
  · next h => rw [show n.toNat = 0 by omega]; simp

theorem substr_rest {w : List Char} {n : ℤ} (h : 0 ≤ n) : substr w n (w.length - n) = w.drop n.toNat := by
  unfold substr
  split
  · rw [List.take_of_length_le]; simp; omega
  · rw [List.drop_of_length_le]; omega

theorem substr_suffix {w : List Char} {n : ℕ} (h : n ≤ w.length) : substr w (w.length - n) n = w.drop (w.length - n) := by
  unfold substr
  split
  · rw [List.take_of_length_le]
    · congr 1; omega
    · simp; omega
  · rw [List.drop_of_length_le]; omega

theorem val_skolemPrefix (hS : StringTheory M.I L) {u n : Term} {w : List Char} {m : ℤ} (hu : M.val u = strV w) (hn : M.val n = .int m) :
    M.val (skolemPrefix u n) = strV (w.take m.toNat) := by
  rw [skolemPrefix, val_substr hS hu (val_intTerm 0) hn, substr_prefix]

theorem val_skolemSuffixRem (hS : StringTheory M.I L) {u n : Term} {w : List Char} {m : ℤ} (hu : M.val u = strV w) (hn : M.val n = .int m)
    (hm : 0 ≤ m) : M.val (skolemSuffixRem u n) = strV (w.drop m.toNat) := by
  rw [skolemSuffixRem, val_substr hS hu hn (val_minus (val_strLen hS hu) hn), substr_rest hm]

theorem val_skolemSuffix (hS : StringTheory M.I L) {u n : Term} {w : List Char} {m : ℕ} (hu : M.val u = strV w) (hn : M.val n = .int m)
    (hm : m ≤ w.length) : M.val (skolemSuffix u n) = strV (w.drop (w.length - m)) := by
  rw [skolemSuffix, val_substr hS hu (val_minus (val_strLen hS hu) hn) hn, substr_suffix hm]

theorem val_skolemUnifyPrefix (hS : StringTheory M.I L) {t s : Term} {v w : List Char} (ht : M.val t = strV v) (hs : M.val s = strV w) :
    M.val (skolemUnifyPrefix t s) = strV (if w.length ≤ v.length then v.drop w.length else w.drop v.length) := by
  rw [skolemUnifyPrefix, Model.val_ite]
  simp only [holds_ge (val_strLen hS ht) (val_strLen hS hs), val_skolemSuffixRem hS ht (val_strLen hS hs) (by omega),
    val_skolemSuffixRem hS hs (val_strLen hS ht) (by omega)]
  split <;> split <;> first | rfl | omega

theorem val_skolemUnifySuffix (hS : StringTheory M.I L) {t s : Term} {v w : List Char} (ht : M.val t = strV v) (hs : M.val s = strV w) :
    M.val (skolemUnifySuffix t s) = strV (if w.length ≤ v.length then v.take (v.length - w.length) else w.take (w.length - v.length)) := by
  rw [skolemUnifySuffix, Model.val_ite]
  simp only [holds_ge (val_strLen hS ht) (val_strLen hS hs), val_skolemPrefix hS ht (val_minus (val_strLen hS ht) (val_strLen hS hs)),
    val_skolemPrefix hS hs (val_minus (val_strLen hS hs) (val_strLen hS ht))]
  split <;> split <;> first | omega | (congr 2; omega)

theorem val_expand (hS : StringTheory M.I L) {t : Term} {s : Srt} (ht : sortOf t = some s) : M.val (expandStr t) = M.val t :=
  eval_expandStr hS t ht M.env_dom

/-! ## Comparisons of pieces -/

theorem Term.subterms_trans (t : Term) : ∀ {u v : Term}, u ∈ t.subterms → v ∈ u.subterms → v ∈ t.subterms := by
  induction t using Term.ind with
  | const c => intro u v hu hv; simp only [Term.subterms, List.mem_singleton] at hu; subst hu; exact hv
  | var n s => intro u v hu hv; simp only [Term.subterms, List.mem_singleton] at hu; subst hu; exact hv
  | app f as ihf ih =>
    intro u v hu hv
    simp only [Term.subterms, List.mem_cons, List.mem_append, Term.mem_subtermsL] at hu
    rcases hu with rfl | hu | ⟨a, ha, hu⟩
    · exact hv
    · exact subterms_app (.inl rfl) _ (ihf hu hv)
    · exact subterms_app (.inr ha) _ (ih a ha hu hv)
  | op o as ih =>
    intro u v hu hv
    simp only [Term.subterms, List.mem_cons, Term.mem_subtermsL] at hu
    rcases hu with rfl | ⟨a, ha, hu⟩
    · exact hv
    · exact subterms_op ha _ (ih a ha hu hv)
  | binder b bs t ih =>
    intro u v hu hv
    simp only [Term.subterms, List.mem_cons] at hu
    rcases hu with rfl | hu
    · exact hv
    · exact subterms_binder _ (ih hu hv)
  | let_ bs t ihb ih =>
    intro u v hu hv
    simp only [Term.subterms, List.mem_cons, List.mem_append, Term.mem_subtermsB] at hu
    rcases hu with rfl | ⟨b, hb, hu⟩ | hu
    · exact hv
    · exact subterms_let (.inr ⟨b, hb, rfl⟩) _ (ihb b hb hu hv)
    · exact subterms_let (.inl rfl) _ (ih hu hv)
  | paramOp o ps as ihp ih =>
    intro u v hu hv
    simp only [Term.subterms, List.mem_cons, List.mem_append, Term.mem_subtermsL] at hu
    rcases hu with rfl | ⟨a, ha, hu⟩ | ⟨a, ha, hu⟩
    · exact hv
    · simp only [Term.subterms, List.mem_cons, List.mem_append]
      exact Or.inr (Or.inl (Term.mem_subtermsL.2 ⟨a, ha, ihp a ha hu hv⟩))
    · exact subterms_paramOp ha _ (ih a ha hu hv)

theorem Term.subtermsL_trans {ts : List Term} {u v : Term} (hu : u ∈ Term.subtermsL ts) (hv : v ∈ u.subterms) : v ∈ Term.subtermsL ts := by
  obtain ⟨t, ht, hu⟩ := Term.mem_subtermsL.1 hu
  exact Term.mem_subtermsL.2 ⟨t, ht, Term.subterms_trans t hu hv⟩

/-- Nodes the comparison cannot confuse. -/
def Neutral : Term → Prop
  | .op o _ => o ≠ .realDiv
  | .const (.str _) => True
  | _ => False

theorem Neutral.clean {t : Term} (h : Neutral t) : t.cleanNode false = true := by
  unfold Term.cleanNode
  split
  · exact absurd rfl h
  · rfl
  · rfl

theorem Neutral.sep_left {t u : Term} (h : Neutral t) : sepNode t u = true := by
  unfold sepNode
  split
  · exact absurd h (by simp [Neutral])
  · exact absurd h (by simp [Neutral])
  · rfl

theorem Neutral.sep_right {t u : Term} (h : Neutral u) : sepNode t u = true := by
  unfold sepNode
  split
  · exact absurd h (by simp [Neutral])
  · exact absurd h (by simp [Neutral])
  · rfl

/-- All nodes come from the terms, or are neutral. -/
def Built (ts : List Term) (t : Term) : Prop := ∀ v ∈ t.subterms, v ∈ Term.subtermsL ts ∨ Neutral v

theorem Built.mem {ts : List Term} {t : Term} (h : t ∈ Term.subtermsL ts) : Built ts t := fun _ hv => .inl (Term.subtermsL_trans h hv)

theorem Built.op {ts : List Term} {o : Op} {as : List Term} (ho : o ≠ .realDiv) (h : ∀ a ∈ as, Built ts a) : Built ts (.op o as) := by
  intro v hv
  simp only [Term.subterms, List.mem_cons, Term.mem_subtermsL] at hv
  rcases hv with rfl | ⟨a, ha, hv⟩
  · exact .inr ho
  · exact h a ha v hv

theorem Built.comparable {ts : List Term} (hc : Compatible false ts) {a b : Term} (ha : Built ts a) (hb : Built ts b)
    (sa : (sortOf a).isSome = true) (sb : (sortOf b).isSome = true) : Comparable false a b := by
  have clean : ∀ {t : Term}, Built ts t → t.clean false := by
    intro t ht u hu
    rcases ht u hu with h | h
    · obtain ⟨t, ht, hu⟩ := Term.mem_subtermsL.1 h
      exact (hc.1 t ht).2 u hu
    · exact h.clean
  refine ⟨sa, sb, clean ha, clean hb, fun u hu v hv => ?_⟩
  rcases ha u hu with h | h
  · rcases hb v hv with h' | h'
    · obtain ⟨t, ht, hu⟩ := Term.mem_subtermsL.1 h
      obtain ⟨t', ht', hv⟩ := Term.mem_subtermsL.1 h'
      exact hc.2 t ht t' ht' u hu v hv
    · exact h'.sep_right
  · exact h.sep_left

theorem Built.same {ts : List Term} (hc : Compatible false ts) {a b : Term} (ha : Built ts a) (hb : Built ts b)
    (sa : (sortOf a).isSome = true) (sb : (sortOf b).isSome = true) (h : polyeq a b = .ok true) : Same a b :=
  polyeqWith_sound rfl h (ha.comparable hc hb sa sb)

theorem Built.val {ts : List Term} (hc : Compatible false ts) {a b : Term} (ha : Built ts a) (hb : Built ts b)
    (sa : (sortOf a).isSome = true) (sb : (sortOf b).isSome = true) (h : polyeq a b = .ok true) : M.val a = M.val b :=
  Built.same hc ha hb sa sb h M.I M.env M.env_dom

theorem Built.piece {ts : List Term} {t u : Term} (ht : Built ts t) (hu : u ∈ flattenStr t) : Built ts u := by
  rcases mem_flattenStr t hu with ⟨c, rfl⟩ | h
  · intro v hv
    simp only [charTerm, Term.subterms, List.mem_singleton] at hv
    subst hv
    exact .inr trivial
  · exact fun v hv => ht v (Term.subterms_trans t h.1 hv)

theorem piece_sort {t u : Term} (hs : (sortOf t).isSome = true) (hu : u ∈ flattenStr t) : (sortOf u).isSome = true := by
  rcases mem_flattenStr t hu with ⟨c, rfl⟩ | h
  · rfl
  · exact h.2.2 hs

/-- The comparison accepts the pieces pairwise. -/
def Pairs (ps qs : List Term) : Prop := List.Forall₂ (fun p q => polyeq p q = .ok true) ps qs

theorem Pairs.strs {ts : List Term} (hc : Compatible false ts) {s t : Term} (hs : Built ts s) (ht : Built ts t)
    (ss : (sortOf s).isSome = true) (st : (sortOf t).isSome = true) {ps qs : List Term} (h : Pairs ps qs)
    (hp : ∀ p ∈ ps, p ∈ flattenStr s) (hq : ∀ q ∈ qs, q ∈ flattenStr t) : M.strs ps = M.strs qs := by
  induction h with
  | nil => rfl
  | @cons p q ps qs h _ ih =>
    rw [strs_cons, strs_cons, ih (fun p hp' => hp p (by simp [hp'])) (fun q hq' => hq q (by simp [hq']))]
    congr 1
    simp only [Model.str, Built.val hc (hs.piece (hp p (by simp))) (ht.piece (hq q (by simp))) (piece_sort ss (hp p (by simp)))
      (piece_sort st (hq q (by simp))) h]

theorem prefixLoop_ok : ∀ {ps ts : List Term}, prefixLoop ps ts = .ok () → ∃ qs rest, ts = qs ++ rest ∧ Pairs ps qs
  | [], ts, _ => ⟨[], ts, rfl, .nil⟩
  | _ :: _, [], h => by simp [prefixLoop, panic] at h
  | p :: ps, t :: ts, h => by
    rw [prefixLoop] at h
    obtain ⟨_, h1, h⟩ := bind_ok.1 h
    obtain ⟨qs, rest, rfl, h2⟩ := prefixLoop_ok h
    exact ⟨t :: qs, rest, rfl, .cons (assertPolyeq_ok.1 h1) h2⟩

theorem Pairs.reverse {ps qs : List Term} (h : Pairs ps qs) : Pairs ps.reverse qs.reverse := List.rel_reverse h

theorem isPrefixOrSuffix_ok {t p : Term} {rev : Bool} {l : List Term} (h : isPrefixOrSuffix t p rev = .ok l) :
    l = flattenStr p ∧ ∃ qs rest, Pairs (flattenStr p) qs ∧ flattenStr t = if rev then rest ++ qs else qs ++ rest := by
  simp only [isPrefixOrSuffix, bind_ok, ok_inj] at h
  obtain ⟨_, -, _, h, rfl⟩ := h
  refine ⟨rfl, ?_⟩
  obtain ⟨qs, rest, h1, h2⟩ := prefixLoop_ok h
  cases rev with
  | false => exact ⟨qs, rest, h2, h1⟩
  | true =>
    refine ⟨qs.reverse, rest.reverse, by simpa [revIf] using h2.reverse, ?_⟩
    have := congrArg List.reverse h1
    simpa [revIf] using this

/-- What a prefix or suffix accepted by the check says about the values. -/
theorem isPrefixOrSuffix_str (hS : StringTheory M.I L) {ts : List Term} (hc : Compatible false ts) {t p : Term} (ht : Built ts t)
    (hp : Built ts p) (st : (sortOf t).isSome = true) (sp : (sortOf p).isSome = true) {rev : Bool} {l : List Term}
    (h : isPrefixOrSuffix t p rev = .ok l) : ∃ r, M.str t = if rev then r ++ M.str p else M.str p ++ r := by
  obtain ⟨-, qs, rest, h1, h2⟩ := isPrefixOrSuffix_ok h
  have e : M.strs (flattenStr p) = M.strs qs := by
    refine h1.strs hc hp ht sp st (fun _ h => h) fun q hq => ?_
    rw [h2]; cases rev <;> simp [hq]
  refine ⟨M.strs rest, ?_⟩
  rw [← str_flatten hS st, ← str_flatten hS sp, e, h2]
  cases rev <;> simp

theorem stripCommon_ok : ∀ {ss ts as bs : List Term}, stripCommon ss ts = .ok (as, bs) → ∃ ps qs, ss = ps ++ as ∧ ts = qs ++ bs ∧ Pairs ps qs ∧
    ∀ a as' b bs', as = a :: as' → bs = b :: bs' → polyeq a b = .ok false
  | [], ts, as, bs, h => by
    simp only [stripCommon, ok_inj, Prod.mk.injEq] at h
    obtain ⟨rfl, rfl⟩ := h
    exact ⟨[], [], rfl, rfl, .nil, by simp⟩
  | s :: ss, [], as, bs, h => by
    simp only [stripCommon, ok_inj, Prod.mk.injEq] at h
    obtain ⟨rfl, rfl⟩ := h
    exact ⟨[], [], rfl, rfl, .nil, by simp⟩
  | s :: ss, t :: ts, as, bs, h => by
    rw [stripCommon] at h
    obtain ⟨b, h1, h⟩ := bind_ok.1 h
    cases b with
    | true =>
      obtain ⟨ps, qs, rfl, rfl, h2, h3⟩ := stripCommon_ok h
      exact ⟨s :: ps, t :: qs, rfl, rfl, .cons h1 h2, h3⟩
    | false =>
      obtain ⟨rfl, rfl⟩ : s :: ss = as ∧ t :: ts = bs := by simpa using h
      refine ⟨[], [], rfl, rfl, .nil, ?_⟩
      rintro a as' b bs' ⟨⟩ ⟨⟩
      exact h1

theorem strip_ok {s t : Term} {rev : Bool} {as bs : List Term} (h : stripPrefixOrSuffix s t rev = .ok (as, bs)) :
    ∃ ps qs, Pairs ps qs ∧ (flattenStr s = if rev then as ++ ps else ps ++ as) ∧ (flattenStr t = if rev then bs ++ qs else qs ++ bs) ∧
      ∀ a as' b bs', revIf rev as = a :: as' → revIf rev bs = b :: bs' → polyeq a b = .ok false := by
  simp only [stripPrefixOrSuffix, bind_ok, ok_inj, Prod.mk.injEq] at h
  obtain ⟨_, -, _, -, ⟨as', bs'⟩, h, rfl, rfl⟩ := h
  obtain ⟨ps, qs, h1, h2, h3, h4⟩ := stripCommon_ok h
  cases rev with
  | false => exact ⟨ps, qs, h3, h1, h2, h4⟩
  | true =>
    refine ⟨ps.reverse, qs.reverse, h3.reverse, ?_, ?_, ?_⟩
    · have := congrArg List.reverse h1
      simpa [revIf] using this
    · have := congrArg List.reverse h2
      simpa [revIf] using this
    · simpa [revIf] using h4

/-- What remains after stripping has equal values on both sides. -/
theorem strip_str (hS : StringTheory M.I L) {ts : List Term} (hc : Compatible false ts) {s t : Term} (hs : Built ts s)
    (ht : Built ts t) (ss : (sortOf s).isSome = true) (st : (sortOf t).isSome = true) (he : M.str s = M.str t) {rev : Bool} {as bs : List Term}
    (h : stripPrefixOrSuffix s t rev = .ok (as, bs)) : M.strs as = M.strs bs := by
  obtain ⟨ps, qs, h1, h2, h3, -⟩ := strip_ok h
  have e : M.strs ps = M.strs qs := h1.strs hc hs ht ss st (fun p hp => by rw [h2]; cases rev <;> simp [hp])
    (fun q hq => by rw [h3]; cases rev <;> simp [hq])
  rw [← str_flatten hS ss, ← str_flatten hS st, h2, h3] at he
  cases rev <;> simpa [e] using he

end

theorem polyeq_refl (t : Term) : polyeq t t = .ok true := by
  simp [polyeq, polyeqWith, polyRc]

/-! ## Expanding twice -/

theorem flattenStrL_pieces : ∀ {us : List Term}, (∀ u ∈ us, flattenStr u = [u]) → flattenStrL us = us
  | [], _ => rfl
  | u :: us, h => by
    rw [flattenStrL, h u (by simp), flattenStrL_pieces fun v hv => h v (by simp [hv])]; rfl

theorem expandStr_idem (t : Term) : expandStr (expandStr t) = expandStr t := by
  induction t using Term.ind with
  | const c =>
    cases c with
    | str s =>
      rw [expandStr]
      split
      · rfl
      · simp [charTerm, expandStr]
      · rw [expandStr, flattenStrL_pieces]
        intro u hu
        obtain ⟨c, -, rfl⟩ := List.mem_map.1 hu
        simp [charTerm, flattenStr]
    | _ => rfl
  | var n s => rfl
  | app f as ihf ih =>
    rw [expandStr, expandStr, expandStrL_eq_map, expandStrL_eq_map, List.map_map]
    congr 1
    exact List.map_congr_left ih
  | op o as ih =>
    by_cases ho : o = .strConcat
    · subst ho
      rw [expandStr, expandStr, flattenStrL_pieces]
      intro u hu
      obtain ⟨a, -, hu⟩ := mem_flattenStrL.1 hu
      exact flattenStr_piece a hu
    · rw [expandStr_op ho, expandStr_op ho, List.map_map]
      congr 1
      exact List.map_congr_left ih
  | binder b bs t ih => rw [expandStr, expandStr, ih]
  | let_ bs t _ ih => rw [expandStr, expandStr, ih]
  | paramOp o ps as _ ih =>
    rw [expandStr, expandStr, expandStrL_eq_map, expandStrL_eq_map, List.map_map]
    congr 1
    exact List.map_congr_left ih

/-- Expanding keeps the value. -/
def ExpOK (M : Model) (t : Term) : Prop := M.val (expandStr t) = M.val t

theorem ExpOK.op {M : Model} {o : Op} {as : List Term} (ho : o ≠ .strConcat) (h : ∀ a ∈ as, ExpOK M a) : ExpOK M (.op o as) :=
  eval_expandStr_op ho h

theorem ExpOK.idem {M : Model} (t : Term) : ExpOK M (expandStr t) := by rw [ExpOK, expandStr_idem]

theorem ExpOK.int {M : Model} (z : ℤ) : ExpOK M (intTerm z) := rfl

theorem ExpOK.empty {M : Model} : ExpOK M emptyStr := rfl

theorem ExpOK.len {M : Model} {t : Term} (h : ExpOK M t) : ExpOK M (strLenOf t) := .op (by decide) (by simpa using h)

theorem ExpOK.op2 {M : Model} {o : Op} {a b : Term} (ho : o ≠ .strConcat) (ha : ExpOK M a) (hb : ExpOK M b) : ExpOK M (.op o [a, b]) :=
  .op ho (by simpa using ⟨ha, hb⟩)

theorem ExpOK.op3 {M : Model} {o : Op} {a b c : Term} (ho : o ≠ .strConcat) (ha : ExpOK M a) (hb : ExpOK M b) (hc : ExpOK M c) :
    ExpOK M (.op o [a, b, c]) := .op ho (by simpa using ⟨ha, hb, hc⟩)

theorem ExpOK.prefix {M : Model} {u n : Term} (hu : ExpOK M u) (hn : ExpOK M n) : ExpOK M (skolemPrefix u n) :=
  .op3 (by decide) hu (.int 0) hn

theorem ExpOK.suffixRem {M : Model} {u n : Term} (hu : ExpOK M u) (hn : ExpOK M n) : ExpOK M (skolemSuffixRem u n) :=
  .op3 (by decide) hu hn (.op2 (by decide) hu.len hn)

theorem ExpOK.unifyPrefix {M : Model} {t s : Term} (ht : ExpOK M t) (hs : ExpOK M s) : ExpOK M (skolemUnifyPrefix t s) :=
  .op3 (by decide) (.op2 (by decide) ht.len hs.len) (ht.suffixRem hs.len) (hs.suffixRem ht.len)

theorem ExpOK.unifySuffix {M : Model} {t s : Term} (ht : ExpOK M t) (hs : ExpOK M s) : ExpOK M (skolemUnifySuffix t s) :=
  .op3 (by decide) (.op2 (by decide) ht.len hs.len) (ht.prefix (.op2 (by decide) ht.len hs.len)) (hs.prefix (.op2 (by decide) hs.len ht.len))

theorem ExpOK.remainder {M : Model} {a r : Term} (ha : ExpOK M a) (hr : ExpOK M r) : ExpOK M (remainderTerm a r) :=
  .op3 (by decide) ha (.op (by decide) (by simpa using ExpOK.op2 (o := .equals) (by decide) hr .empty)) (.op2 (by decide) hr.len (.int 0))

theorem ExpOK.concat2 {M : Model} {L : Val M.I.U → Language Char} (hS : StringTheory M.I L) {a b : Term} (ha : FlatOK M.I M.env a)
    (hb : FlatOK M.I M.env b) : ExpOK M (.op .strConcat [a, b]) :=
  eval_expandStr_concat hS (by simpa using ⟨ha, hb⟩)

/-- The value of the term a rule expects. -/
theorem holds_remainder {M : Model} {L : Val M.I.U → Language Char} (hS : StringTheory M.I L) {a r : Term} {w : List Char} (hr : M.val r = strV w) :
    M.Holds (remainderTerm a r) ↔ M.Holds a ∧ w ≠ [] := by
  rw [remainderTerm, Model.holds_and]
  simp only [List.mem_cons, List.not_mem_nil, or_false, forall_eq_or_imp, forall_eq, Model.holds_not, Model.holds_eq,
    holds_gt (val_strLen hS hr) (val_intTerm 0), hr, val_emptyStr, strV_inj]
  constructor
  · exact fun h => ⟨h.1, h.2.1⟩
  · refine fun h => ⟨h.1, h.2, ?_⟩
    have := List.length_pos_iff.2 h.2
    omega

/-- A constant among the pieces is a single character. -/
theorem checkLengthOne_piece {t u : Term} (hu : u ∈ flattenStr t) (h : checkLengthOne u = .ok ()) : ∃ c, u = charTerm c := by
  have := flattenStr_piece t hu
  unfold checkLengthOne at h
  split at h
  · next s =>
    simp only [flattenStr] at this
    match e : s.toList with
    | [c] => rw [e] at this; exact ⟨c, by simpa using this.symm⟩
    | [] => simp [e] at this
    | _ :: _ :: _ => simp [e] at this
  · simp [err] at h

end Carcara
