import Verif.Spec.FreeVars
import Verif.Spec.Polyeq

/-! # Specification: when comparison modulo renaming is meant to be sound -/

namespace Carcara

mutual
/-- Binders at corresponding positions have equally long lists (the arguments of an equality may be swapped). -/
def Term.aligned : Term → Term → Bool
  | .app f as, .app g bs => f.aligned g && Term.alignedL as bs
  | .op o as, .op _ bs => if o = .equals then Term.alignedX as bs else Term.alignedL as bs
  | .binder _ xs a, .binder _ ys b => decide (xs.length = ys.length) && a.aligned b
  | .paramOp _ _ as, .paramOp _ _ bs => Term.alignedL as bs
  | _, _ => true
/-- Arguments at the same position. -/
def Term.alignedL : List Term → List Term → Bool
  | a :: as, b :: bs => a.aligned b && Term.alignedL as bs
  | _, _ => true
/-- Arguments at any positions. -/
def Term.alignedX : List Term → List Term → Bool
  | [], _ => true
  | a :: as, bs => (bs.all fun b => a.aligned b) && Term.alignedX as bs
end

/-- No binder of the term rebinds a name that is bound around it, and no bound name is also used for a free variable.
Terms with `let` are excluded. -/
def Term.barendregt (t : Term) : Bool := t.noShadow [] && t.fv.all fun v => decide (v.1 ∉ t.boundNames)

theorem Term.alignedL_zip : ∀ {as bs : List Term}, Term.alignedL as bs = true → ∀ p ∈ as.zip bs, p.1.aligned p.2 = true
  | [], _, _, p, hp => by simp at hp
  | _ :: _, [], _, p, hp => by simp at hp
  | a :: as, b :: bs, h, p, hp => by
    rw [Term.alignedL, Bool.and_eq_true] at h
    rw [List.zip_cons_cons, List.mem_cons] at hp
    rcases hp with rfl | hp
    · exact h.1
    · exact alignedL_zip h.2 p hp

theorem Term.alignedX_all : ∀ {as bs : List Term}, Term.alignedX as bs = true →
    ∀ a ∈ as, ∀ b ∈ bs, a.aligned b = true
  | [], _, _, a, ha, _, _ => by cases ha
  | c :: as, bs, h, a, ha, b, hb => by
    rw [Term.alignedX, Bool.and_eq_true, List.all_eq_true] at h
    rcases List.mem_cons.1 ha with rfl | ha
    · exact h.1 b hb
    · exact alignedX_all h.2 a ha b hb

theorem Term.aligned_op {o o' : Op} {as bs : List Term} (h : (Term.op o as).aligned (.op o' bs) = true) :
    ∀ p ∈ as.zip bs, p.1.aligned p.2 = true := by
  rw [Term.aligned] at h
  split at h
  · intro p hp
    have := List.of_mem_zip (a := p.1) (b := p.2) hp
    exact Term.alignedX_all h _ this.1 _ this.2
  · exact Term.alignedL_zip h

end Carcara
