import Verif.Model.ElabCong
import Verif.Lemmas.ElabTrans
import Verif.Lemmas.UncrowdingTotal
import Verif.Props.C45
import Verif.Lemmas.AciNormal

/-! # Facts about the elaboration of congruence steps -/

namespace Carcara

open Spec

/-- `(= a b)`. -/
abbrev eqTerm (e : Term × Term) : Term := .op .equals [e.1, e.2]

/-! ## `check_cong` -/

theorem congFlips_isSome (ps : List (Term × Term)) (fs gs : List Term) :
    (congFlips ps fs gs).isSome = true ↔ checkCong ps fs gs = .ok () := by
  fun_induction congFlips ps fs gs with
  | case1 f fs g gs t u rest h ih => rw [checkCong, if_pos (.inl h), ← ih]; simp
  | case2 f fs g gs t u rest h h' ih => rw [checkCong, if_pos (.inr h'), ← ih]; simp
  | case3 f fs gs t u rest h h' ih => rw [checkCong, if_neg (by tauto), if_pos rfl, ← ih]
  | case4 f fs g gs t u rest h h' h'' => rw [checkCong, if_neg (by tauto), if_neg h'']; simp [err]
  | case5 fs f gs ih => rw [checkCong, if_pos rfl, ← ih]
  | case6 f fs g gs h => rw [checkCong, if_neg h]; simp [err]
  | case7 fs gs h =>
    cases fs with
    | nil => simp [checkCong]
    | cons f fs => cases gs with
      | nil => simp [checkCong]
      | cons g gs => exact (h _ _ _ _ rfl rfl).elim
  | case8 fs p ps gs h =>
    cases fs with
    | nil => simp [checkCong, err]
    | cons f fs => cases gs with
      | nil => simp [checkCong, err]
      | cons g gs => exact (h _ _ _ _ rfl rfl).elim

theorem turn_cons (p : Term × Term) (ps : List (Term × Term)) (b : Bool) (bs : List Bool) :
    turn (p :: ps) (b :: bs) = (if b then p.swap else p) :: turn ps bs := rfl

theorem congFlips_spec {ps : List (Term × Term)} {fs gs : List Term} {b : List Bool} (h : congFlips ps fs gs = some b) :
    b.length = ps.length ∧ checkCong (turn ps b) fs gs = .ok () := by
  fun_induction congFlips ps fs gs generalizing b with
  | case1 f fs g gs t u rest h' ih =>
    obtain ⟨c, hc, rfl⟩ := Option.map_eq_some_iff.1 h
    obtain ⟨h1, h2⟩ := ih hc
    refine ⟨by simp [h1], ?_⟩
    rw [turn_cons, if_neg (by simp), checkCong, if_pos (.inl h'), h2]
  | case2 f fs g gs t u rest h1' h' ih =>
    obtain ⟨c, hc, rfl⟩ := Option.map_eq_some_iff.1 h
    obtain ⟨h1, h2⟩ := ih hc
    refine ⟨by simp [h1], ?_⟩
    rw [turn_cons, if_pos rfl, Prod.swap_prod_mk, checkCong, if_pos (.inl h'), h2]
  | case3 f fs gs t u rest h1' h' ih =>
    obtain ⟨h1, h2⟩ := ih h
    refine ⟨h1, ?_⟩
    obtain ⟨c, cs, rfl⟩ := List.exists_cons_of_length_eq_add_one h1
    rw [turn_cons] at h2 ⊢
    cases c
    · rw [if_neg (by simp)] at h2 ⊢
      rw [checkCong, if_neg (by tauto), if_pos rfl]
      exact h2
    · rw [if_pos rfl, Prod.swap_prod_mk] at h2 ⊢
      rw [checkCong, if_neg (by tauto), if_pos rfl]
      exact h2
  | case4 f fs g gs t u rest h1 h' h'' => simp at h
  | case5 fs f gs ih =>
    obtain ⟨h1, h2⟩ := ih h
    obtain rfl := List.length_eq_zero_iff.1 h1
    refine ⟨rfl, ?_⟩
    simp only [turn, List.zip_nil_left, List.map_nil] at h2 ⊢
    rw [checkCong, if_pos rfl, h2]
  | case6 f fs g gs h' => simp at h
  | case7 fs gs h' =>
    cases h
    refine ⟨rfl, ?_⟩
    rw [← congFlips_isSome]
    simp only [turn, List.zip_nil_left, List.map_nil]
    unfold congFlips
    split
    · next a b _ _ _ => exact (h' _ _ _ _ rfl rfl).elim
    · rfl
    · simp_all
  | case8 fs p ps gs h' => simp at h

theorem checkCong_length {ps : List (Term × Term)} {fs gs : List Term} (h : checkCong ps fs gs = .ok ()) : ps.length ≤ fs.length := by
  fun_induction checkCong ps fs gs with
  | case1 _ _ _ _ _ _ _ _ ih => have := ih h; simp; omega
  | case2 _ _ _ _ _ _ _ ih => have := ih h; simp at *; omega
  | case3 => simp [err] at h
  | case4 => simp
  | case5 => simp
  | case6 => simp
  | case7 => simp [err] at h

theorem turn_of_none {es : List (Term × Term)} {b : List Bool} (hl : b.length = es.length) (h : b.any id = false) : turn es b = es := by
  induction es generalizing b with
  | nil => rfl
  | cons e es ih =>
    obtain ⟨c, cs, rfl⟩ := List.exists_cons_of_length_eq_add_one hl
    rw [List.any_cons, Bool.or_eq_false_iff] at h
    obtain rfl : c = false := h.1
    rw [turn_cons, ih (by simpa using hl) h.2]
    rfl

/-! ## `flip_needed_premises` -/

theorem flipMarked_ok : ∀ {es : List (Term × Term)} {ps : List Node} {b : List Bool} {ids : IdHelper},
    ps.map Node.clause = es.map (fun e => [eqTerm e]) → b.length = es.length → ids.stack ≠ [] →
    ∃ qs, flipMarked ids (ps.zip b) = .ok qs ∧ qs.map Node.clause = (turn es b).map (fun e => [eqTerm e]) ∧
      ∀ q ∈ qs, q ∈ ps ∨ ∃ p ∈ ps, ∃ d', q = .mk d' [p] ∧ d'.rule = "symm" ∧ symm d'.clause [p.clause] d'.args = .ok ()
  | [], ps, b, ids, h, _, _ => by
    obtain rfl : ps = [] := by simpa using h
    exact ⟨[], rfl, rfl, by simp⟩
  | e :: es, [], b, ids, h, _, _ => by simp at h
  | e :: es, p :: ps, [], ids, h, hl, _ => by simp at hl
  | e :: es, p :: ps, c :: b, ids, h, hl, hi => by
    simp only [List.map_cons, List.cons.injEq] at h
    have hl' : b.length = es.length := by simpa using hl
    cases c with
    | false =>
      obtain ⟨qs, h1, h2, h3⟩ := flipMarked_ok (ids := ids) h.2 hl' hi
      refine ⟨p :: qs, ?_, ?_, ?_⟩
      · rw [List.zip_cons_cons, flipMarked, h1]; rfl
      · rw [turn_cons, List.map_cons, List.map_cons, h2, h.1]; rfl
      · intro q hq
        rcases List.mem_cons.1 hq with rfl | hq
        · exact .inl (by simp)
        · rcases h3 q hq with h | ⟨p', hp, h⟩
          · exact .inl (by simp [h])
          · exact .inr ⟨p', by simp [hp], h⟩
    | true =>
      obtain ⟨id, ids', hid, hi'⟩ := IdHelper.nextId_total hi
      obtain ⟨qs, h1, h2, h3⟩ := flipMarked_ok (ids := ids') h.2 hl' hi'
      have hs : addSymm p id = .ok (.mk ⟨id, p.depth, [eqTerm e.swap], "symm", []⟩ [p]) := by
        rw [addSymm, h.1]; rfl
      refine ⟨.mk ⟨id, p.depth, [eqTerm e.swap], "symm", []⟩ [p] :: qs, ?_, ?_, ?_⟩
      · rw [List.zip_cons_cons, flipMarked, hid]
        simp only [bind, Except.bind]
        rw [hs]
        simp only
        rw [h1]
      · rw [turn_cons, List.map_cons, List.map_cons, h2]; rfl
      · intro q hq
        rcases List.mem_cons.1 hq with rfl | hq
        · refine .inr ⟨p, by simp, _, rfl, rfl, ?_⟩
          rw [h.1]
          simp [symm, get1, match2, assertEq, require, bind, Except.bind]
        · rcases h3 q hq with h | ⟨p', hp, h⟩
          · exact .inl (by simp [h])
          · exact .inr ⟨p', by simp [hp], h⟩

theorem termArgs_of_congArgs {f g : Term} {as bs : List Term} (h : congArgs f g = .ok (as, bs)) :
    termArgs f = .ok as ∧ termArgs g = .ok bs := by
  unfold congArgs at h
  split at h
  · split at h
    · simp [err] at h
    · cases h; exact ⟨rfl, rfl⟩
  · unfold sameHead at h
    split at h
    · split at h
      · cases h; exact ⟨rfl, rfl⟩
      · simp [err] at h
    · split at h
      · cases h; exact ⟨rfl, rfl⟩
      · simp [err] at h
    · simp [err] at h

theorem collectRes_headEq {ps : List Node} {es : List (Term × Term)} (h : ps.map Node.clause = es.map (fun e => [eqTerm e])) :
    collectRes (fun p => headEq p.clause) ps = .ok es := by
  rw [collectRes_ok]
  refine (forall₂_of_map_eq h).imp fun p e hp => ?_
  rw [hp]; rfl

theorem cong_intro {f g : Term} {as bs : List Term} {es : List (Term × Term)} {args : List Term} (h1 : congArgs f g = .ok (as, bs))
    (h2 : as.length = bs.length) (h3 : checkCong es as bs = .ok ()) (h4 : es ≠ []) :
    cong [eqTerm (f, g)] (es.map fun e => [eqTerm e]) args = .ok () := by
  have hc : collectRes premiseEq (es.map fun e => [eqTerm e]) = .ok es := by
    rw [collectRes_ok, List.forall₂_map_left_iff]
    exact List.forall₂_same.2 fun e _ => premiseEq_ok.2 rfl
  have hp : 1 ≤ (es.map fun e => [eqTerm e]).length := by
    rw [List.length_map]; exact List.length_pos_iff.2 h4
  simp only [cong, bind_ok, get1_ok, require_ok, match2_ok, Prod.exists]
  refine ⟨_, rfl, (), hp, es, hc, f, g, rfl, ?_⟩
  split
  · cases h1
    rw [h3]; rfl
  · simp only [congGeneral, bind_ok, require_ok, Prod.exists]
    exact ⟨as, bs, h1, (), h2, h3⟩

/-- `flip_needed_premises` on a step that the general case of `cong` accepts. -/
theorem flipNeeded_ok {E : TableEnv} {el : Bool} {d : NodeData} {ps dis : List Node} {prev : Option Node} {f g : Term} {as bs : List Term}
    {es : List (Term × Term)} (hd : d.clause = [eqTerm (f, g)]) (hr : d.rule = "cong") (h1 : congArgs f g = .ok (as, bs))
    (h2 : as.length = bs.length) (h3 : checkCong es as bs = .ok ()) (h4 : es ≠ [])
    (hps : ps.map Node.clause = es.map fun e => [eqTerm e]) :
    ∃ n, flipNeeded d ps dis prev = .ok n ∧ n.clause = d.clause ∧ Derived E el ps n := by
  obtain ⟨b, hb⟩ := Option.isSome_iff_exists.1 ((congFlips_isSome es as bs).2 h3)
  obtain ⟨hl, hc⟩ := congFlips_spec hb
  obtain ⟨ha1, ha2⟩ := termArgs_of_congArgs h1
  obtain ⟨qs, hq1, hq2, hq3⟩ := flipMarked_ok (ids := .new d.id) hps hl (by simp [IdHelper.new])
  have hcl : ∀ {args : List Term}, cong d.clause ((turn es b).map fun e => [eqTerm e]) args = .ok () := by
    intro args
    rw [hd]
    refine cong_intro h1 h2 hc ?_
    intro h
    have := congrArg List.length h
    simp only [turn, List.length_map, List.length_zip, hl, List.length_nil, min_self] at this
    exact h4 (List.length_eq_zero_iff.1 this)
  have hrule : getRule E el d.rule = some cong.lift := by rw [hr]; rfl
  have hrun : flipNeeded d ps dis prev = if b.any id then .ok (.step d qs dis prev) else .ok (.step d ps dis prev) := by
    unfold flipNeeded
    rw [hd, show headEq [eqTerm (f, g)] = .ok (f, g) from rfl]
    simp only [bind, Except.bind]
    rw [ha1]
    simp only
    rw [ha2]
    simp only
    rw [collectRes_headEq hps]
    simp only
    rw [hb]
    simp only [orPanic]
    rw [hq1]
  rw [hrun]
  split
  · refine ⟨_, rfl, rfl, .step ?_ ⟨cong, hrule, ?_⟩⟩
    · intro q hq
      rcases hq3 q hq with h | ⟨p, hp, d', rfl, hr', hs⟩
      · exact .given h
      · exact .step (by simpa using .given hp) ⟨symm, by rw [hr']; rfl, hs⟩
    · rw [hq2]; exact hcl
  · next hn =>
    refine ⟨_, rfl, rfl, .step (fun q hq => .given hq) ⟨cong, hrule, ?_⟩⟩
    have := hcl (args := d.args)
    rw [turn_of_none hl (by simpa using hn)] at this
    rw [hps]
    exact this

theorem Spec.Derived.mono {E : TableEnv} {el : Bool} {ps qs : List Node} {n : Node} (h : Derived E el ps n) (hs : ∀ p ∈ ps, p ∈ qs) :
    Derived E el qs n := by
  induction h with
  | given h => exact .given (hs _ h)
  | step _ h ih => exact .step ih h

theorem eqSymmStep_derived {E : TableEnv} {el : Bool} {ps : List Node} (a b : Term) (id : String) (depth : Nat) :
    Derived E el ps (eqSymmStep a b id depth) :=
  .step (by simp) ⟨eqSymmetric, rfl, by simp [eqSymmetric, get1, match2, assertEq, require, bind, Except.bind]⟩

theorem addTrans_ok {E : TableEnv} {el : Bool} {ps : List Node} {m n : Node} {a b c : Term} {id : String} (hm : Derived E el ps m)
    (hn : Derived E el ps n) (h1 : m.clause = [eqTerm (a, b)]) (h2 : n.clause = [eqTerm (b, c)]) :
    ∃ r, addTrans m n id = .ok r ∧ r.clause = [eqTerm (a, c)] ∧ Derived E el ps r := by
  refine ⟨.mk ⟨id, m.depth, [eqTerm (a, c)], "trans", []⟩ [m, n], ?_, rfl, .step ?_ ⟨trans, rfl, ?_⟩⟩
  · rw [addTrans, h1, h2]; rfl
  · intro p hp
    simp only [List.mem_cons, List.not_mem_nil, or_false] at hp
    rcases hp with rfl | rfl
    · exact hm
    · exact hn
  · simp only [List.map_cons, List.map_nil, h1, h2, trans, bind_ok, get1_ok, match2_ok, Prod.exists]
    refine ⟨_, rfl, a, c, rfl, [(a, b), (b, c)], ?_, chain_findChain (.cons (.cons (.nil _)))⟩
    rfl

/-- Turning around both sides of an equality between equalities gives nothing new if there are fewer than two premises, and reverses two
premises. -/
theorem checkCong_both {es : List (Term × Term)} {f1 f2 g1 g2 : Term} (h : checkCong es [f2, f1] [g2, g1] = .ok ())
    (hne : ¬ (f1 = g1 ∧ f2 = g2)) (hno : checkCong es [f1, f2] [g1, g2] ≠ .ok ()) :
    es.length = 2 ∧ checkCong es.reverse [f1, f2] [g1, g2] = .ok () := by
  match es with
  | [] =>
    simp only [checkCong] at h
    split at h
    · split at h
      · exact absurd ⟨‹_›, ‹_›⟩ hne
      · simp [err] at h
    · simp [err] at h
  | [(t, u)] =>
    exfalso
    simp only [checkCong] at h hno
    split at h
    · split at h
      · next h1 h2 =>
        subst h2
        apply hno
        rw [if_neg, if_pos rfl, if_pos h1]
        rintro (⟨rfl, rfl⟩ | ⟨rfl, rfl⟩)
        · exact hne ⟨rfl, by rcases h1 with h1 | h1 <;> exact h1.1.trans h1.2.symm⟩
        · exact hne ⟨rfl, by rcases h1 with h1 | h1 <;> exact h1.1.trans h1.2.symm⟩
      · simp [err] at h
    · split at h
      · next h1 h2 =>
        subst h2
        split at h
        · next h3 =>
          apply hno
          rw [if_pos h3, if_pos rfl]
        · split at h <;> simp [err] at h
      · simp [err] at h
  | [(t, u), (v, w)] =>
    refine ⟨rfl, ?_⟩
    simp only [List.reverse_cons, List.reverse_nil, List.nil_append, List.cons_append]
    simp only [checkCong] at h ⊢
    split at h
    · next h1 =>
      split at h
      · next h2 => rw [if_pos h2, if_pos h1]
      · split at h <;> simp [err] at h
    · split at h
      · split at h
        · simp [err] at h
        · split at h <;> simp [err] at h
      · simp [err] at h
  | _ :: _ :: _ :: _ =>
    have := checkCong_length h
    simp at this

/-! ## `eq_congruent` -/

theorem congFlips_justify : ∀ {es : List (Term × Term)} {as bs : List Term}, justify es as bs = .ok () → es.length = as.length →
    as.length = bs.length → ∃ b, congFlips es as bs = some b ∧ b.length = es.length ∧ justify (turn es b) as bs = .ok () ∧
      b = (es.zip (as.zip bs)).map fun p => decide (p.1 ≠ p.2)
  | [], [], [], _, _, _ => ⟨[], rfl, rfl, rfl, rfl⟩
  | [], _ :: _, _, _, h, _ => by simp at h
  | [], [], _ :: _, _, _, h => by simp at h
  | _ :: _, [], _, _, h, _ => by simp at h
  | _ :: _, _ :: _, [], _, _, h => by simp at h
  | (t, u) :: es, f :: as, g :: bs, h, h1, h2 => by
    simp only [justify, bind_ok, require_ok] at h
    obtain ⟨_, hm, h⟩ := h
    obtain ⟨b, hb, hl, hj, he⟩ := congFlips_justify h (by simpa using h1) (by simpa using h2)
    by_cases hm' : f = t ∧ g = u
    · obtain ⟨rfl, rfl⟩ := hm'
      refine ⟨false :: b, ?_, by simp [hl], ?_, by simp [he]⟩
      · rw [congFlips, if_pos ⟨rfl, rfl⟩, hb]; rfl
      · rw [turn_cons, if_neg (by simp), justify, hj]; simp [require, bind, Except.bind]
    · have hm2 : f = u ∧ g = t := by tauto
      obtain ⟨rfl, rfl⟩ := hm2
      refine ⟨true :: b, ?_, by simp [hl], ?_, ?_⟩
      · rw [congFlips, if_neg hm', if_pos ⟨rfl, rfl⟩, hb]; rfl
      · rw [turn_cons, if_pos rfl, Prod.swap_prod_mk, justify, hj]; simp [require, bind, Except.bind]
      · simp only [List.zip_cons_cons, List.map_cons, ← he, List.cons.injEq, and_true]
        symm
        rw [decide_eq_true_eq]
        rintro e
        cases e
        exact hm' ⟨rfl, rfl⟩

theorem mem_marked {α : Type} {b : Bool} {l : List α} {flags : List Bool} {x : α} : x ∈ marked b l flags ↔ (x, b) ∈ l.zip flags := by
  simp only [marked, List.mem_map, List.mem_filter, beq_iff_eq, Prod.exists]
  constructor
  · rintro ⟨_, _, ⟨h, rfl⟩, rfl⟩; exact h
  · intro h; exact ⟨x, b, ⟨h, rfl⟩, rfl⟩

theorem mem_marked_or {α : Type} {l : List α} {flags : List Bool} {x : α} (h : l.length ≤ flags.length) :
    x ∈ marked false l flags ++ marked true l flags ↔ x ∈ l := by
  rw [List.mem_append, mem_marked, mem_marked]
  constructor
  · rintro (h | h) <;> exact (List.of_mem_zip h).1
  · intro hx
    obtain ⟨i, hi, rfl⟩ := List.mem_iff_getElem.1 hx
    have hz : (l[i], flags[i]) ∈ l.zip flags := List.mem_iff_getElem.2 ⟨i, by simp; omega, by simp⟩
    cases hf : flags[i] <;> rw [hf] at hz <;> tauto

theorem mem_turn {es : List (Term × Term)} {b : List Bool} {e : Term × Term} : e ∈ turn es b ↔ (e, false) ∈ es.zip b ∨ (e.swap, true) ∈ es.zip b := by
  simp only [turn, List.mem_map, Prod.exists]
  constructor
  · rintro ⟨t, u, c, h, rfl⟩
    cases c
    · exact .inl h
    · exact .inr (by simpa using h)
  · rintro (h | h)
    · exact ⟨_, _, _, h, rfl⟩
    · exact ⟨_, _, _, h, by simp⟩

/-- The clauses of the `equiv1` steps. -/
def turnClauses (fs : List (Term × Term)) : List (List Term) := fs.map fun e => [neqTerm e.1 e.2, eqTerm e.swap]

/-- The arguments of the resolution step. -/
def turnArgs (fs : List (Term × Term)) : List Term := fs.flatMap fun e => [.op .equals [e.2, e.1], .fls]

theorem resolvent_turn {P e : Term → Prop} {f : Term × Term} : Resolvent P [neqTerm f.1 f.2, eqTerm f.swap] (.op .not [.op .equals [f.2, f.1]])
    (.op .equals [f.2, f.1]) e ↔ P (neqTerm f.2 f.1) ∧ ∀ x, e x ↔ (P x ∧ x ≠ neqTerm f.2 f.1) ∨ x = neqTerm f.1 f.2 := by
  unfold Resolvent
  simp [neqTerm, eqTerm]

theorem resChain_congr {P T T' : Term → Prop} {ds : List (List Term)} {args : List Term} (h : ResChain P ds args T) (e : ∀ x, T x ↔ T' x) :
    ResChain P ds args T' := by
  rwa [show T = T' from funext fun x => propext (e x)] at h

/-- Resolving with the `equiv1` clauses replaces the literals, if no equality comes in both directions. -/
theorem resChain_turn : ∀ {fs : List (Term × Term)} {P : Term → Prop}, fs.Nodup → (∀ e ∈ fs, e.swap ∉ fs) →
    (∀ e ∈ fs, P (neqTerm e.2 e.1)) →
    ResChain P (turnClauses fs) (turnArgs fs)
      (fun x => (P x ∧ ∀ e ∈ fs, x ≠ neqTerm e.2 e.1) ∨ ∃ e ∈ fs, x = neqTerm e.1 e.2)
  | [], P, _, _, _ => .done (by simp)
  | f :: fs, P, hn, hs, hP => by
    rw [List.nodup_cons] at hn
    refine .neg (e := fun x => (P x ∧ x ≠ neqTerm f.2 f.1) ∨ x = neqTerm f.1 f.2) (resolvent_turn.2 ⟨hP f (by simp), fun x => .rfl⟩) ?_
    have ih := resChain_turn (fs := fs) (P := fun x => (P x ∧ x ≠ neqTerm f.2 f.1) ∨ x = neqTerm f.1 f.2) hn.2
      (fun e he h => hs e (by simp [he]) (by simp [h]))
      (fun e he => .inl ⟨hP e (by simp [he]), fun h => hn.1 (by
        have : e = f := Prod.ext (neqTerm_inj.1 h).2 (neqTerm_inj.1 h).1
        exact this ▸ he)⟩)
    refine resChain_congr ih fun x => ⟨?_, ?_⟩
    · rintro (⟨⟨hp, hx⟩ | rfl, h⟩ | ⟨g, hg, rfl⟩)
      · exact .inl ⟨hp, List.forall_mem_cons.2 ⟨hx, h⟩⟩
      · exact .inr ⟨f, by simp, rfl⟩
      · exact .inr ⟨g, by simp [hg], rfl⟩
    · rintro (⟨hp, h⟩ | ⟨g, hg, rfl⟩)
      · obtain ⟨hx, h⟩ := List.forall_mem_cons.1 h
        exact .inl ⟨.inl ⟨hp, hx⟩, h⟩
      · rcases List.mem_cons.1 hg with rfl | hg
        · refine .inl ⟨.inr rfl, fun e he h => hs e (by simp [he]) ?_⟩
          have : e.swap = g := Prod.ext (neqTerm_inj.1 h).1.symm (neqTerm_inj.1 h).2.symm
          simp [this]
        · exact .inr ⟨g, hg, rfl⟩

/-- A literal that is not there and is not added is not there afterwards. -/
theorem resChain_turn_absent : ∀ {fs : List (Term × Term)} {P T : Term → Prop} {x : Term}, ResChain P (turnClauses fs) (turnArgs fs) T →
    ¬ P x → (∀ e ∈ fs, x ≠ neqTerm e.1 e.2) → ¬ T x
  | [], P, T, x, h, hx, _ => by
    cases h with
    | done h => rwa [← h]
  | f :: fs, P, T, x, h, hx, hf => by
    cases h with
    | neg h1 h2 =>
      have h1 := (resolvent_turn.1 h1).2
      refine resChain_turn_absent h2 ?_ (fun e he => hf e (by simp [he]))
      rw [h1]
      rintro (⟨h, -⟩ | h)
      · exact hx h
      · exact hf f (by simp) h

/-- Turning around an equality loses one of its two directions. -/
theorem resChain_turn_lost : ∀ {fs : List (Term × Term)} {P T : Term → Prop} {f : Term × Term}, ResChain P (turnClauses fs) (turnArgs fs) T →
    f ∈ fs → f.1 ≠ f.2 → ¬ (T (neqTerm f.1 f.2) ∧ T (neqTerm f.2 f.1))
  | [], P, T, f, _, h, _ => by simp at h
  | g :: fs, P, T, f, h, hf, hne => by
    cases h with
    | neg h1 h2 =>
      have h1 := (resolvent_turn.1 h1).2
      by_cases hm : f ∈ fs
      · exact resChain_turn_lost h2 hm hne
      by_cases hm' : f.swap ∈ fs
      · intro h
        exact resChain_turn_lost h2 hm' (Ne.symm hne) ⟨h.2, h.1⟩
      obtain rfl : f = g := by
        rcases List.mem_cons.1 hf with h | h
        · exact h
        · exact absurd h hm
      intro ⟨_, h⟩
      refine resChain_turn_absent h2 (x := neqTerm f.2 f.1) ?_ ?_ h
      · rw [h1]
        rintro (⟨-, h⟩ | h)
        · exact h rfl
        · exact hne (neqTerm_inj.1 h).2
      · intro e he h
        have : f.swap = e := Prod.ext (neqTerm_inj.1 h).1 (neqTerm_inj.1 h).2
        exact hm' (this ▸ he)

theorem fixedStep_ok {E : TableEnv} {el : Bool} {given : List Node} {d : NodeData} {clause : List Term} {ids : IdHelper} (hi : ids.stack ≠ [])
    (h : eqCongruent clause [] [] = .ok ()) :
    ∃ n ids', fixedStep d clause ids = .ok (n, ids') ∧ ids'.stack ≠ [] ∧ (∀ x, x ∈ n.clause ↔ x ∈ clause) ∧ Derived E el given n := by
  obtain ⟨id, ids₁, e1, hi1⟩ := IdHelper.nextId_total hi
  obtain ⟨id₂, ids₂, e2, hi2⟩ := IdHelper.nextId_total hi1
  have hf : Derived E el given (.mk ⟨id, d.depth, clause, "eq_congruent", []⟩ []) := .step (by simp) ⟨eqCongruent, rfl, h⟩
  unfold fixedStep
  rw [e1]
  simp only [bind, Except.bind]
  split
  · exact ⟨_, _, rfl, hi1, fun x => .rfl, hf⟩
  · rw [e2]
    refine ⟨_, _, rfl, hi2, fun x => mem_dedup, .step (by simpa using hf) (stepOK_contraction rfl ?_)⟩
    refine contraction_complete (fun t => ?_) (fun t ht => mem_dedup.2 ht)
    by_cases hm : t ∈ dedup clause
    · rw [List.count_eq_one_of_mem (dedup_is_nodup _) hm]
      exact List.count_pos_iff.2 (mem_dedup.1 hm)
    · rw [List.count_eq_zero_of_not_mem hm]; exact Nat.zero_le _

theorem turnSteps_ok {E : TableEnv} {el : Bool} {given : List Node} {depth : Nat} : ∀ {fs : List (Term × Term)} {ids : IdHelper},
    ids.stack ≠ [] → ∃ ns ids', turnSteps depth ids fs = .ok (ns, ids') ∧ ids'.stack ≠ [] ∧ ns.map Node.clause = turnClauses fs ∧
      ∀ n ∈ ns, Derived E el given n
  | [], ids, hi => ⟨[], ids, rfl, hi, rfl, by simp⟩
  | (u, t) :: fs, ids, hi => by
    obtain ⟨id, ids₁, e1, hi1⟩ := IdHelper.nextId_total hi
    obtain ⟨id₂, ids₂, e2, hi2⟩ := IdHelper.nextId_total hi1
    obtain ⟨ns, ids', e, hi', h1, h2⟩ := turnSteps_ok (E := E) (el := el) (given := given) (depth := depth) (fs := fs) hi2
    refine ⟨.mk ⟨id₂, depth, [.op .not [.op .equals [u, t]], .op .equals [t, u]], "equiv1", []⟩ [eqSymmStep u t id depth] :: ns, ids',
      ?_, hi', ?_, ?_⟩
    · rw [turnSteps, e1]
      simp only [bind, Except.bind]
      rw [e2]
      simp only
      rw [e]
    · rw [List.map_cons, h1]; rfl
    · intro n hn
      rcases List.mem_cons.1 hn with rfl | hn
      · refine .step (by simpa using eqSymmStep_derived u t id depth) ⟨equiv1, rfl, ?_⟩
        simp [eqSymmStep, Node.mk, Node.clause, equiv1, get1, get2, match2, assertEq, require, Term.removeNegErr, Term.removeNegation, orErr,
          bind, Except.bind]
      · exact h2 n hn

theorem collect_neqOf {es : List (Term × Term)} : collectRes neqOf (neqs es) = .ok es := by
  rw [collectRes_ok, neqs, List.forall₂_map_left_iff]
  exact List.forall₂_same.2 fun e _ => rfl

theorem eqCongruent_iff {c : List Term} {ps : List (List Term)} {args : List Term} : eqCongruent c ps args = .ok () ↔
    ∃ es f g as bs, c = neqs es ++ [eqTerm (f, g)] ∧ es ≠ [] ∧ sameHead f g = .ok (as, bs) ∧ es.length = as.length ∧
      as.length = bs.length ∧ justify es as bs = .ok () := by
  simp only [eqCongruent, genericCongruent, bind_ok, require_ok, orPanic_ok, match2_ok, Prod.exists]
  constructor
  · rintro ⟨_, hl, _, hlast, f, g, rfl, eqs, heqs, es, hes, as, bs, hfg, _, h1, _, h2, hj⟩
    have hc : c.dropLast = neqs es := by
      rw [collectRes_ok] at heqs hes
      rw [neqs]
      generalize c.dropLast = ls at heqs
      clear hj h2 hlast hl
      induction heqs generalizing es with
      | nil => cases hes; rfl
      | cons h _ ih =>
        cases hes with
        | cons h' hes =>
          rw [List.map_cons, ← ih _ hes]
          rw [match2_ok] at h'
          rw [Term.removeNegErr, orErr_ok] at h
          unfold Term.removeNegation at h
          split at h
          · simp only [Option.some.injEq] at h
            subst h
            rw [h']
            rfl
          · simp at h
    have hcl : c = neqs es ++ [eqTerm (f, g)] := by rw [← hc]; exact (List.dropLast_append_getLast? _ hlast).symm
    refine ⟨es, f, g, as, bs, hcl, ?_, hfg, h2, h1, hj⟩
    rintro rfl
    rw [hcl] at hl
    simp [neqs] at hl
  · rintro ⟨es, f, g, as, bs, rfl, hne, hfg, h1, h2, hj⟩
    refine ⟨(), ?_, _, List.getLast?_concat, f, g, rfl, es.map eqTerm, ?_, es, ?_, as, bs, hfg, (), h2, (), h1, hj⟩
    · have := List.length_pos_iff.2 hne
      simp [neqs]; omega
    · rw [List.dropLast_concat, collectRes_ok, neqs, List.forall₂_map_left_iff, List.forall₂_map_right_iff]
      exact List.forall₂_same.2 fun e _ => rfl
    · rw [collectRes_ok, List.forall₂_map_left_iff]
      exact List.forall₂_same.2 fun e _ => rfl

theorem congArgs_of_sameHead {f g : Term} {as bs : List Term} (h : sameHead f g = .ok (as, bs)) :
    termArgs f = .ok as ∧ termArgs g = .ok bs := by
  unfold sameHead at h
  split at h
  · split at h
    · cases h; exact ⟨rfl, rfl⟩
    · simp [err] at h
  · split at h
    · cases h; exact ⟨rfl, rfl⟩
    · simp [err] at h
  · simp [err] at h

theorem weakenStep_ok {E : TableEnv} {el : Bool} {given : List Node} {d : NodeData} {n : Node} {ids : IdHelper} (hi : ids.stack ≠ [])
    (hn : n.clause.Nodup) (hm : ∀ x, x ∈ n.clause ↔ x ∈ d.clause) :
    ∃ w, weakenStep d n ids = .ok w ∧ w.clause.Perm d.clause ∧ (Derived E el given n → Derived E el given w) ∧
      (w = n ∨ ∃ dw, w = .mk dw [n]) := by
  unfold weakenStep
  split
  · next hl =>
    exact ⟨n, rfl, (List.subperm_of_subset hn (fun x hx => (hm x).1 hx)).perm_of_length_le (le_of_eq hl), id, .inl rfl⟩
  · obtain ⟨w, hw⟩ := weakeningClause_total hn (fun x hx => (hm x).1 hx)
    obtain ⟨h1, h2⟩ := weakeningClause_ok hw
    obtain ⟨id, ids', e, -⟩ := IdHelper.nextId_total hi
    rw [hw]
    simp only [bind, Except.bind]
    rw [e]
    exact ⟨_, rfl, h2, fun h => .step (by simpa using h) (stepOK_weakening rfl h1), .inr ⟨_, rfl⟩⟩

/-- What the elaboration of an accepted `eq_congruent` step gives. -/
theorem elabEqCongruent_ok (E : TableEnv) (el : Bool) {d : NodeData} {ps dis : List Node} {prev : Option Node} {es : List (Term × Term)} {f g : Term}
    {as bs : List Term} (hd : d.clause = neqs es ++ [eqTerm (f, g)]) (hne : es ≠ []) (hfg : sameHead f g = .ok (as, bs))
    (h1 : es.length = as.length) (h2 : as.length = bs.length) (hj : justify es as bs = .ok ()) :
    ∃ b, b = ((es.zip (as.zip bs)).map fun p => decide (p.1 ≠ p.2)) ∧ ((b.any id = false ∧ elabEqCongruent d ps dis prev = .ok (.step d ps dis prev)) ∨
      (b.any id = true ∧ ∃ first steps dr w, elabEqCongruent d ps dis prev = .ok (.mk ⟨d.id, d.depth, d.clause, "reordering", []⟩ [w]) ∧
        (∀ x, x ∈ first.clause ↔ x ∈ neqs (turn es b) ++ [eqTerm (f, g)]) ∧ Derived E el ps first ∧
        steps.map Node.clause = turnClauses (dedup (marked true es b)) ∧ (∀ n ∈ steps, Derived E el ps n) ∧
        dr.rule = "resolution" ∧ (∀ x, x ∈ dr.clause ↔ x ∈ d.clause) ∧ dr.args = turnArgs (dedup (marked true es b)) ∧
        w.clause.Perm d.clause ∧ (Derived E el ps (.mk dr (first :: steps)) → Derived E el ps w) ∧
        (w = .mk dr (first :: steps) ∨ ∃ dw, w = .mk dw [.mk dr (first :: steps)]))) := by
  obtain ⟨b, hb, hl, hj', he⟩ := congFlips_justify hj h1 h2
  refine ⟨b, he, ?_⟩
  obtain ⟨ha1, ha2⟩ := congArgs_of_sameHead hfg
  have hrun : elabEqCongruent d ps dis prev = if b.any id = false then .ok (.step d ps dis prev)
      else turnCongruent d es (eqTerm (f, g)) b := by
    have hlen := List.length_pos_iff.2 hne
    unfold elabEqCongruent
    rw [if_neg (by rw [hd]; simp [neqs]; omega)]
    have e1 : d.clause.dropLast = neqs es := by rw [hd, List.dropLast_concat]
    have e2 : d.clause.getLast? = some (eqTerm (f, g)) := by rw [hd, List.getLast?_concat]
    rw [e1, collect_neqOf, e2]
    simp only [bind, Except.bind, orPanic, match2, if_true]
    rw [ha1]
    simp only
    rw [ha2]
    simp only
    rw [hb]
  rw [hrun]
  by_cases hany : b.any id = false
  · rw [if_pos hany]
    exact .inl ⟨hany, rfl⟩
  · refine .inr ⟨by simpa using hany, ?_⟩
    rw [if_neg hany]
    unfold turnCongruent
    have htl : (turn es b).length = as.length := by simp [turn, hl, h1]
    have hfix : eqCongruent (neqs (turn es b) ++ [eqTerm (f, g)]) [] [] = .ok () := by
      refine eqCongruent_iff.2 ⟨_, f, g, as, bs, rfl, ?_, hfg, htl, h2, hj'⟩
      intro h
      rw [h] at htl
      exact hne (List.length_eq_zero_iff.1 (h1.trans htl.symm))
    obtain ⟨first, ids₁, e1, hi1, hfm, hfd⟩ := fixedStep_ok (E := E) (el := el) (given := ps) (d := d) (ids := .new d.id) (by simp [IdHelper.new]) hfix
    obtain ⟨steps, ids₂, e2, hi2, hs1, hs2⟩ := turnSteps_ok (E := E) (el := el) (given := ps) (depth := d.depth)
      (fs := dedup (marked true es b)) hi1
    obtain ⟨id, ids₃, e3, hi3⟩ := IdHelper.nextId_total hi2
    let clause := dedup (marked false d.clause (b ++ [false]) ++ marked true d.clause (b ++ [false]))
    let dr : NodeData := ⟨id, d.depth, clause, "resolution", turnArgs (dedup (marked true es b))⟩
    have hcm : ∀ x, x ∈ clause ↔ x ∈ d.clause := fun x => by
      rw [mem_dedup, mem_marked_or]
      rw [hd]; simp [neqs, hl]
    obtain ⟨w, e4, hw1, hw2, hw3⟩ := weakenStep_ok (E := E) (el := el) (given := ps) (d := d) (n := .mk dr (first :: steps)) hi3
      (dedup_is_nodup _) hcm
    refine ⟨first, steps, dr, w, ?_, hfm, hfd, hs1, hs2, rfl, hcm, rfl, hw1, hw2, hw3⟩
    rw [show fixedStep d ((turn es b).map (fun e => neqTerm e.1 e.2) ++ [eqTerm (f, g)]) (.new d.id) = .ok (first, ids₁) from e1]
    simp only [bind, Except.bind]
    rw [e2]
    simp only
    rw [e3]
    simp only
    rw [show weakenStep d (Node.mk ⟨id, d.depth, clause, "resolution", (dedup (marked true es b)).flatMap
      fun e => [.op .equals [e.2, e.1], .fls]⟩ (first :: steps)) ids₃ = .ok w from e4]

/-- The resolution step is accepted exactly if no equality that is turned around is there in the other direction. -/
theorem turn_resolution {es : List (Term × Term)} {f g : Term} {b : List Bool} {clause first : List Term} {steps : List (List Term)}
    (hl : b.length = es.length) (hb : b.any id = true) (hneq : ∀ e ∈ marked true es b, e.1 ≠ e.2)
    (hf : ∀ x, x ∈ first ↔ x ∈ neqs (turn es b) ++ [eqTerm (f, g)]) (hc : ∀ x, x ∈ clause ↔ x ∈ neqs es ++ [eqTerm (f, g)])
    (hs : steps = turnClauses (dedup (marked true es b))) :
    resolutionWithArgs clause (first :: steps) (turnArgs (dedup (marked true es b))) = .ok () ↔ ∀ e ∈ marked true es b, e.swap ∉ es := by
  subst hs
  rw [c08_resolution_with_args_exact]
  have hmem : ∀ {a c : Term}, neqTerm a c ∈ neqs es ↔ (a, c) ∈ es := by
    intro a c
    simp only [neqs, List.mem_map, neqTerm_inj, Prod.exists]
    constructor
    · rintro ⟨_, _, h, rfl, rfl⟩; exact h
    · intro h; exact ⟨a, c, h, rfl, rfl⟩
  have hlast : ∀ {a c : Term}, neqTerm a c ≠ eqTerm (f, g) := by simp [neqTerm, eqTerm]
  constructor
  · rintro ⟨-, h⟩ e he hr
    have he' : e ∈ es := (List.of_mem_zip (mem_marked.1 he)).1
    refine resChain_turn_lost h (mem_dedup.2 he) (hneq e he) ⟨?_, ?_⟩
    · rw [hc, List.mem_append, hmem]; exact .inl he'
    · rw [hc, List.mem_append, hmem]; exact .inl hr
  · intro h
    constructor
    · obtain ⟨c, hcb, hct⟩ := List.any_eq_true.1 hb
      obtain ⟨i, hi, rfl⟩ := List.mem_iff_getElem.1 hcb
      have hz : (es[i]'(by omega), b[i]) ∈ es.zip b := List.mem_iff_getElem.2 ⟨i, by simp; omega, by simp⟩
      have hm : es[i]'(by omega) ∈ dedup (marked true es b) := mem_dedup.2 (mem_marked.2 (by rwa [show b[i] = true from hct] at hz))
      intro h0
      rw [turnClauses, List.map_eq_nil_iff] at h0
      rw [h0] at hm
      simp at hm
    · refine resChain_congr (resChain_turn (dedup_is_nodup _) ?_ ?_) fun x => ?_
      · intro e he hs
        exact h e (mem_dedup.1 he) (List.of_mem_zip (mem_marked.1 (mem_dedup.1 hs))).1
      · intro e he
        rw [hf, List.mem_append]
        refine .inl ?_
        rw [neqs, List.mem_map]
        exact ⟨e.swap, mem_turn.2 (.inr (by simpa using mem_marked.1 (mem_dedup.1 he))), rfl⟩
      · rw [hf, hc, List.mem_append, List.mem_append]
        simp only [mem_dedup, List.mem_singleton]
        constructor
        · rintro (⟨hx | hx, hn⟩ | ⟨e, he, rfl⟩)
          · simp only [neqs, List.mem_map] at hx
            obtain ⟨e, he, rfl⟩ := hx
            rcases mem_turn.1 he with he | he
            · exact .inl (hmem.2 (List.of_mem_zip he).1)
            · exact absurd rfl (hn e.swap (mem_marked.2 he))
          · exact .inr hx
          · exact .inl (hmem.2 (List.of_mem_zip (mem_marked.1 he)).1)
        · rintro (hx | rfl)
          · simp only [neqs, List.mem_map] at hx
            obtain ⟨e, he, rfl⟩ := hx
            obtain ⟨i, hi, rfl⟩ := List.mem_iff_getElem.1 he
            have hz : (es[i], b[i]) ∈ es.zip b := List.mem_iff_getElem.2 ⟨i, by simp; omega, by simp⟩
            cases hbi : b[i] with
            | true =>
              rw [hbi] at hz
              exact .inr ⟨_, mem_marked.2 hz, rfl⟩
            | false =>
              rw [hbi] at hz
              refine .inl ⟨.inl ?_, fun e' he' e => h e' he' ?_⟩
              · rw [neqs, List.mem_map]
                exact ⟨_, mem_turn.2 (.inl hz), rfl⟩
              · have : e'.swap = es[i] := Prod.ext (neqTerm_inj.1 e).1.symm (neqTerm_inj.1 e).2.symm
                rw [this]; exact he
          · exact .inl ⟨.inr rfl, fun e _ h => hlast h.symm⟩

end Carcara
