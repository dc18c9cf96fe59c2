import Verif.Collections.CostModel
import Verif.Collections.Spec
import Verif.Props.SortEngine
import Verif.Props.Sorting
/-
C82: how many comparisons the sorts make.
-/
set_option linter.unusedVariables false
namespace Adapton.Coll
variable {X : Type} (H : NameHash) (le : X → X → Bool)

namespace CL
/-- The number of elements. -/
def len : CL X → Nat
  | nil => 0
  | cons _ l => l.len + 1
  | name _ l => l.len
  | art _ l => l.len
/-- The cost of all articulations. -/
def tot : CL X → Nat
  | nil => 0
  | cons _ l => l.tot
  | name _ l => l.tot
  | art c l => c + l.tot
/-- The cost of the articulations after which at most one element comes. -/
def late : CL X → Nat
  | nil => 0
  | cons _ l => l.late
  | name _ l => l.late
  | art c l => (if l.len ≤ 1 then c else 0) + l.late

theorem len_strip (l : CL X) : l.strip.len = l.len := by
  induction l with
  | art c l ih => exact ih
  | _ => rfl
theorem tot_strip (l : CL X) : l.vcost + l.strip.tot = l.tot := by
  induction l with
  | art c l ih => simp only [vcost, strip, tot]; omega
  | _ => simp [vcost, strip]
theorem late_strip (l : CL X) (h : l.late = 0) : l.strip.late = 0 ∧ (l.len ≤ 1 → l.vcost = 0) := by
  induction l with
  | art c l ih =>
    simp only [late, Nat.add_eq_zero_iff] at h
    refine ⟨(ih h.2).1, fun hl => ?_⟩
    have hl : l.len ≤ 1 := hl
    have := (ih h.2).2 hl
    rw [if_pos hl] at h
    simp only [vcost]; omega
  | _ => exact ⟨h, fun _ => rfl⟩
end CL

theorem nameOp_len (n : Option Name) (l : CL X) : (clNameOp n l).len = l.len := by cases n <;> rfl
theorem nameOp_tot (n : Option Name) (l : CL X) : (clNameOp n l).tot = l.tot := by cases n <;> rfl
theorem nameOp_late (n : Option Name) (l : CL X) : (clNameOp n l).late = l.late := by cases n <;> rfl

/-- What there is about a list whose leading articulations are removed. -/
theorem strip_facts {l v : CL X} (h : l.strip = v) : v.len = l.len ∧ l.vcost + v.tot = l.tot ∧ (l.late = 0 → v.late = 0 ∧ (l.len ≤ 1 → l.vcost = 0)) := by
  subst h
  exact ⟨l.len_strip, l.tot_strip, l.late_strip⟩

theorem cmerge_len (n1 : Option Name) (l1 : CL X) (n2 : Option Name) (l2 : CL X) : (cmerge H le n1 l1 n2 l2).1.len = l1.len + l2.len := by
  fun_induction cmerge H le n1 l1 n2 l2 with
  | case1 n1 l1 n2 l2 h1 =>
    obtain ⟨a1, _⟩ := strip_facts h1
    simp only [CL.len, nameOp_len] at *; omega
  | case2 n1 l1 n2 l2 h1 t1 hv1 hv2 =>
    obtain ⟨a1, _⟩ := strip_facts hv1
    obtain ⟨a2, _⟩ := strip_facts hv2
    simp only [CL.len, nameOp_len] at *; omega
  | case3 l1 n2 l2 h1 t1 hv1 h2 t2 hv2 hle r ih =>
    have ih : r.1.len = _ := ih
    obtain ⟨a1, _⟩ := strip_facts hv1
    obtain ⟨a2, _⟩ := strip_facts hv2
    simp only [CL.len] at *; omega
  | case4 l1 n2 l2 h1 t1 hv1 h2 t2 hv2 hle r n1 ih =>
    have ih : r.1.len = _ := ih
    obtain ⟨a1, _⟩ := strip_facts hv1
    obtain ⟨a2, _⟩ := strip_facts hv2
    simp only [CL.len] at *; omega
  | case5 n1 l1 l2 h1 t1 hv1 h2 t2 hv2 hle r ih =>
    have ih : r.1.len = _ := ih
    obtain ⟨a1, _⟩ := strip_facts hv1
    obtain ⟨a2, _⟩ := strip_facts hv2
    simp only [CL.len] at *; omega
  | case6 n1 l1 l2 h1 t1 hv1 h2 t2 hv2 hle r n2 ih =>
    have ih : r.1.len = _ := ih
    obtain ⟨a1, _⟩ := strip_facts hv1
    obtain ⟨a2, _⟩ := strip_facts hv2
    simp only [CL.len] at *; omega
  | case7 n1 l1 n2 l2 h1 t1 hv1 m2 t2 hv2 r ih =>
    have ih : r.1.len = _ := ih
    obtain ⟨a1, _⟩ := strip_facts hv1
    obtain ⟨a2, _⟩ := strip_facts hv2
    simp only [CL.len] at *; omega
  | case8 n1 l1 n2 l2 h1 t1 hv1 a t2 hv2 => exact absurd hv2 CL.strip_art
  | case9 n1 l1 n2 l2 m1 t1 hv1 r ih =>
    have ih : r.1.len = _ := ih
    obtain ⟨a1, _⟩ := strip_facts hv1
    simp only [CL.len] at *; omega
  | case10 n1 l1 n2 l2 a t hv => exact absurd hv CL.strip_art

/-- The comparisons of a merge of `a` with `b` elements: each one but the last yields an element. -/
def mergeBound (a b : Nat) : Nat := if a = 0 ∨ b = 0 then 0 else a + b - 1

theorem mergeBound_zero {b : Nat} : mergeBound 0 b = 0 := if_pos (.inl rfl)
theorem mergeBound_zero' {b : Nat} : mergeBound b 0 = 0 := if_pos (.inr rfl)
theorem mergeBound_succ {a b : Nat} : mergeBound (a + 1) (b + 1) = a + b + 1 := by
  unfold mergeBound
  rw [if_neg (by omega)]; omega
theorem mergeBound_left {a b : Nat} : 1 + mergeBound a (b + 1) ≤ mergeBound (a + 1) (b + 1) := by
  rw [mergeBound_succ]
  cases a with
  | zero => rw [mergeBound_zero]; omega
  | succ a => rw [mergeBound_succ]; omega
theorem mergeBound_right {a b : Nat} : 1 + mergeBound (a + 1) b ≤ mergeBound (a + 1) (b + 1) := by
  rw [mergeBound_succ]
  cases b with
  | zero => rw [mergeBound_zero']; omega
  | succ a => rw [mergeBound_succ]; omega

theorem cmerge_tot (n1 : Option Name) (l1 : CL X) (n2 : Option Name) (l2 : CL X) :
    (cmerge H le n1 l1 n2 l2).2 + (cmerge H le n1 l1 n2 l2).1.tot ≤ l1.tot + l2.tot + mergeBound l1.len l2.len := by
  fun_induction cmerge H le n1 l1 n2 l2 with
  | case1 n1 l1 n2 l2 h1 =>
    obtain ⟨a1, b1, _⟩ := strip_facts h1
    simp only [CL.tot, nameOp_tot] at *; omega
  | case2 n1 l1 n2 l2 h1 t1 hv1 hv2 =>
    obtain ⟨a1, b1, _⟩ := strip_facts hv1
    obtain ⟨a2, b2, _⟩ := strip_facts hv2
    simp only [CL.tot, nameOp_tot] at *; omega
  | case3 l1 n2 l2 h1 t1 hv1 h2 t2 hv2 hle r ih =>
    have ih : r.2 + r.1.tot ≤ _ := ih
    obtain ⟨a1, b1, _⟩ := strip_facts hv1
    obtain ⟨a2, b2, _⟩ := strip_facts hv2
    have := mergeBound_left (a := t1.len) (b := t2.len)
    rw [← a1, ← a2]
    simp only [CL.tot, CL.len] at *; omega
  | case4 l1 n2 l2 h1 t1 hv1 h2 t2 hv2 hle r n1 ih =>
    have ih : r.2 + r.1.tot ≤ _ := ih
    obtain ⟨a1, b1, _⟩ := strip_facts hv1
    obtain ⟨a2, b2, _⟩ := strip_facts hv2
    have := mergeBound_left (a := t1.len) (b := t2.len)
    rw [← a1, ← a2]
    simp only [CL.tot, CL.len] at *; omega
  | case5 n1 l1 l2 h1 t1 hv1 h2 t2 hv2 hle r ih =>
    have ih : r.2 + r.1.tot ≤ _ := ih
    obtain ⟨a1, b1, _⟩ := strip_facts hv1
    obtain ⟨a2, b2, _⟩ := strip_facts hv2
    have := mergeBound_right (a := t1.len) (b := t2.len)
    rw [← a1, ← a2]
    simp only [CL.tot, CL.len] at *; omega
  | case6 n1 l1 l2 h1 t1 hv1 h2 t2 hv2 hle r n2 ih =>
    have ih : r.2 + r.1.tot ≤ _ := ih
    obtain ⟨a1, b1, _⟩ := strip_facts hv1
    obtain ⟨a2, b2, _⟩ := strip_facts hv2
    have := mergeBound_right (a := t1.len) (b := t2.len)
    rw [← a1, ← a2]
    simp only [CL.tot, CL.len] at *; omega
  | case7 n1 l1 n2 l2 h1 t1 hv1 m2 t2 hv2 r ih =>
    have ih : r.2 + r.1.tot ≤ _ := ih
    obtain ⟨a1, b1, _⟩ := strip_facts hv1
    obtain ⟨a2, b2, _⟩ := strip_facts hv2
    rw [← a1, ← a2]
    simp only [CL.tot, CL.len] at *; omega
  | case8 n1 l1 n2 l2 h1 t1 hv1 a t2 hv2 => exact absurd hv2 CL.strip_art
  | case9 n1 l1 n2 l2 m1 t1 hv1 r ih =>
    have ih : r.2 + r.1.tot ≤ _ := ih
    obtain ⟨a1, b1, _⟩ := strip_facts hv1
    rw [← a1]
    simp only [CL.tot, CL.len] at *; omega
  | case10 n1 l1 n2 l2 a t hv => exact absurd hv CL.strip_art

theorem cmerge_late (n1 : Option Name) (l1 : CL X) (n2 : Option Name) (l2 : CL X) : l1.late = 0 → l2.late = 0 →
    (cmerge H le n1 l1 n2 l2).1.late = 0 ∧ (l1.len + l2.len ≤ 1 → (cmerge H le n1 l1 n2 l2).2 = 0) := by
  fun_induction cmerge H le n1 l1 n2 l2 with
  | case1 n1 l1 n2 l2 h1 =>
    intro g1 g2
    obtain ⟨a1, _, b1⟩ := strip_facts h1
    obtain ⟨b1, c1⟩ := b1 g1
    simp only [nameOp_late]
    exact ⟨g2, fun h => c1 (by omega)⟩
  | case2 n1 l1 n2 l2 h1 t1 hv1 hv2 =>
    intro g1 g2
    obtain ⟨a1, _, b1⟩ := strip_facts hv1
    obtain ⟨a2, _, b2⟩ := strip_facts hv2
    obtain ⟨b1, c1⟩ := b1 g1
    obtain ⟨b2, c2⟩ := b2 g2
    simp only [nameOp_late]
    refine ⟨b1, fun h => ?_⟩
    have := c1 (by omega)
    have := c2 (by omega)
    omega
  | case3 l1 n2 l2 h1 t1 hv1 h2 t2 hv2 hle r ih =>
    intro g1 g2
    obtain ⟨a1, _, b1⟩ := strip_facts hv1
    obtain ⟨a2, _, b2⟩ := strip_facts hv2
    obtain ⟨b1, c1⟩ := b1 g1
    obtain ⟨b2, c2⟩ := b2 g2
    refine ⟨(ih b1 b2).1, fun h => ?_⟩
    simp only [CL.len] at a1 a2; omega
  | case4 l1 n2 l2 h1 t1 hv1 h2 t2 hv2 hle r n1 ih =>
    intro g1 g2
    obtain ⟨a1, _, b1⟩ := strip_facts hv1
    obtain ⟨a2, _, b2⟩ := strip_facts hv2
    obtain ⟨b1, c1⟩ := b1 g1
    obtain ⟨b2, c2⟩ := b2 g2
    obtain ⟨i1, i2⟩ := ih b1 b2
    refine ⟨?_, fun h => ?_⟩
    · have hl := cmerge_len H le none t1 n2 (.cons h2 t2)
      show (if r.1.len ≤ 1 then r.2 else 0) + r.1.late = 0
      have i1 : r.1.late = 0 := i1
      rw [i1]
      by_cases h : r.1.len ≤ 1
      · rw [if_pos h]; exact i2 (by rw [← hl]; exact h)
      · rw [if_neg h]
    · simp only [CL.len] at a1 a2; omega
  | case5 n1 l1 l2 h1 t1 hv1 h2 t2 hv2 hle r ih =>
    intro g1 g2
    obtain ⟨a1, _, b1⟩ := strip_facts hv1
    obtain ⟨a2, _, b2⟩ := strip_facts hv2
    obtain ⟨b1, c1⟩ := b1 g1
    obtain ⟨b2, c2⟩ := b2 g2
    refine ⟨(ih b1 b2).1, fun h => ?_⟩
    simp only [CL.len] at a1 a2; omega
  | case6 n1 l1 l2 h1 t1 hv1 h2 t2 hv2 hle r n2 ih =>
    intro g1 g2
    obtain ⟨a1, _, b1⟩ := strip_facts hv1
    obtain ⟨a2, _, b2⟩ := strip_facts hv2
    obtain ⟨b1, c1⟩ := b1 g1
    obtain ⟨b2, c2⟩ := b2 g2
    obtain ⟨i1, i2⟩ := ih b1 b2
    refine ⟨?_, fun h => ?_⟩
    · have hl := cmerge_len H le n1 (.cons h1 t1) none t2
      show (if r.1.len ≤ 1 then r.2 else 0) + r.1.late = 0
      have i1 : r.1.late = 0 := i1
      rw [i1]
      by_cases h : r.1.len ≤ 1
      · rw [if_pos h]; exact i2 (by rw [← hl]; exact h)
      · rw [if_neg h]
    · simp only [CL.len] at a1 a2; omega
  | case7 n1 l1 n2 l2 h1 t1 hv1 m2 t2 hv2 r ih =>
    intro g1 g2
    obtain ⟨a1, _, b1⟩ := strip_facts hv1
    obtain ⟨a2, _, b2⟩ := strip_facts hv2
    obtain ⟨b1, c1⟩ := b1 g1
    obtain ⟨b2, c2⟩ := b2 g2
    obtain ⟨i1, i2⟩ := ih b1 b2
    refine ⟨i1, fun h => ?_⟩
    have e1 := c1 (by omega)
    have e2 := c2 (by omega)
    have e3 : r.2 = 0 := i2 (by simp only [CL.len] at a1 a2 ⊢; omega)
    show l1.vcost + l2.vcost + r.2 = 0
    omega
  | case8 n1 l1 n2 l2 h1 t1 hv1 a t2 hv2 => exact absurd hv2 CL.strip_art
  | case9 n1 l1 n2 l2 m1 t1 hv1 r ih =>
    intro g1 g2
    obtain ⟨a1, _, b1⟩ := strip_facts hv1
    obtain ⟨b1, c1⟩ := b1 g1
    obtain ⟨i1, i2⟩ := ih b1 g2
    refine ⟨i1, fun h => ?_⟩
    have e1 := c1 (by omega)
    have e3 : r.2 = 0 := i2 (by simp only [CL.len] at a1 ⊢; omega)
    show l1.vcost + r.2 = 0
    omega
  | case10 n1 l1 n2 l2 a t hv => exact absurd hv CL.strip_art

/-! ### The cost model computes what the model computes -/

section
open SortProg (lm_nil lm_cons lm_name)
theorem CL.erase_view (l : CL X) : (l.strip = .nil ∧ l.erase.view = .nil) ∨
    (∃ x t, l.strip = .cons x t ∧ l.erase.view = .cons x t.erase) ∨ (∃ n t, l.strip = .name n t ∧ l.erase.view = .name n t.erase) := by
  induction l with
  | nil => exact .inl ⟨rfl, rfl⟩
  | cons x l ih => exact .inr (.inl ⟨x, l, rfl, rfl⟩)
  | name n l ih => exact .inr (.inr ⟨n, l, rfl, rfl⟩)
  | art a l ih => exact ih
theorem CL.erase_nil {l : CL X} (h : l.strip = .nil) : l.erase.view = .nil := by
  rcases CL.erase_view l with ⟨_, h2⟩ | ⟨x, t, h1, _⟩ | ⟨x, t, h1, _⟩
  · exact h2
  all_goals rw [h] at h1; cases h1
theorem CL.erase_cons {l t : CL X} {x : X} (h : l.strip = .cons x t) : l.erase.view = .cons x t.erase := by
  rcases CL.erase_view l with ⟨h1, _⟩ | ⟨x, t, h1, h2⟩ | ⟨x, t, h1, _⟩
  · rw [h] at h1; cases h1
  · rw [h] at h1; cases h1; exact h2
  · rw [h] at h1; cases h1
theorem CL.erase_name {l t : CL X} {n : Name} (h : l.strip = .name n t) : l.erase.view = .name n t.erase := by
  rcases CL.erase_view l with ⟨h1, _⟩ | ⟨x, t, h1, _⟩ | ⟨x, t, h1, h2⟩
  · rw [h] at h1; cases h1
  · rw [h] at h1; cases h1
  · rw [h] at h1; cases h1; exact h2
theorem clNameOp_erase (n : Option Name) (l : CL X) : (clNameOp n l).erase = listNameOp n l.erase := by cases n <;> rfl

theorem cmerge_erase (n1 : Option Name) (l1 : CL X) (n2 : Option Name) (l2 : CL X) :
    (cmerge H le n1 l1 n2 l2).1.erase = listMerge H le n1 l1.erase n2 l2.erase := by
  fun_induction cmerge H le n1 l1 n2 l2 with
  | case1 n1 l1 n2 l2 h1 =>
    rw [lm_nil H le (CL.erase_nil h1), clNameOp_erase]
  | case2 n1 l1 n2 l2 h1 t1 hv1 hv2 =>
    rw [lm_cons H le (CL.erase_cons hv1), CL.erase_nil hv2, clNameOp_erase]
    rfl
  | case3 l1 n2 l2 h1 t1 hv1 h2 t2 hv2 hle r ih =>
    rw [lm_cons H le (CL.erase_cons hv1), CL.erase_cons hv2]
    simp only [hle, if_true]
    exact congrArg (Lst.cons h1) ih
  | case4 l1 n2 l2 h1 t1 hv1 h2 t2 hv2 hle r n1 ih =>
    rw [lm_cons H le (CL.erase_cons hv1), CL.erase_cons hv2]
    simp only [hle, if_true]
    exact congrArg (fun l => Lst.name (nameFork H n1).2 (.cons h1 (.art l))) ih
  | case5 n1 l1 l2 h1 t1 hv1 h2 t2 hv2 hle r ih =>
    rw [lm_cons H le (CL.erase_cons hv1), CL.erase_cons hv2]
    simp only [hle, Bool.false_eq_true, if_false]
    exact congrArg (Lst.cons h2) ih
  | case6 n1 l1 l2 h1 t1 hv1 h2 t2 hv2 hle r n2 ih =>
    rw [lm_cons H le (CL.erase_cons hv1), CL.erase_cons hv2]
    simp only [hle, Bool.false_eq_true, if_false]
    exact congrArg (fun l => Lst.name (nameFork H n2).2 (.cons h2 (.art l))) ih
  | case7 n1 l1 n2 l2 h1 t1 hv1 m2 t2 hv2 r ih =>
    rw [lm_cons H le (CL.erase_cons hv1), CL.erase_name hv2]
    exact ih
  | case8 n1 l1 n2 l2 h1 t1 hv1 a t2 hv2 => exact absurd hv2 CL.strip_art
  | case9 n1 l1 n2 l2 m1 t1 hv1 r ih =>
    rw [lm_name H le (CL.erase_name hv1)]
    exact ih
  | case10 n1 l1 n2 l2 a t hv => exact absurd hv CL.strip_art
end

theorem cjoin_erase (n1 n2 : Option Name) (l r : CL X × Nat) : (cjoin H le n1 l n2 r).1.erase = listMerge H le n1 l.1.erase n2 r.1.erase :=
  cmerge_erase H le n1 l.1 n2 r.1

/-- C82: the sorts of the cost model return the lists of the sorts of the model. -/
theorem C82_cost_model_sorts (t : Tree X) (nm : Option Name) :
    (csort1 H le t).1.erase = mergesort1 H le t ∧ (csort2 H le t nm).1.erase = mergesort2 H le t nm ∧ (csort3 H le t nm).1.erase = mergesort3 H le t nm := by
  induction t generalizing nm with
  | nil => exact ⟨rfl, rfl, rfl⟩
  | leaf x => exact ⟨rfl, clNameOp_erase nm _, clNameOp_erase nm _⟩
  | bin lev l r ihl ihr =>
    refine ⟨(cjoin_erase H le _ _ _ _).trans ?_, (cjoin_erase H le _ _ _ _).trans ?_, (cjoin_erase H le _ _ _ _).trans ?_⟩
    · exact congr (congrArg (fun x y => listMerge H le none x none y) (ihl none).1) (ihr none).1
    · exact congr (congrArg (fun x y => listMerge H le none x none y) (ihl nm).2.1) (ihr none).2.1
    · exact congr (congrArg (fun x y => listMerge H le none x none y) (ihl nm).2.2) (ihr none).2.2
  | name n lev l r ihl ihr =>
    refine ⟨(cjoin_erase H le _ _ _ _).trans ?_, (cjoin_erase H le _ _ _ _).trans ?_, (cjoin_erase H le _ _ _ _).trans ?_⟩
    · exact congr (congrArg (fun x y => listMerge H le (some (nameFork H n).1) x (some (nameFork H n).2) y) (ihl none).1) (ihr none).1
    · exact congr (congrArg (fun x y => listMerge H le none x (some n) y) (ihl nm).2.1) (ihr (some n)).2.1
    · exact congr (congrArg (fun x y => listMerge H le none x none y) (ihl nm).2.2) (ihr (some n)).2.2
  | art t ih => exact ih nm

/-! ### The total -/

theorem demandCost_zero (l : CL X) : demandCost 0 l = 0 := by cases l <;> rfl

theorem demandCost_le (k : Nat) (l : CL X) : demandCost k l ≤ l.tot := by
  induction l generalizing k with
  | nil => cases k <;> exact Nat.le_refl _
  | cons x l ih => cases k with
    | zero => exact Nat.zero_le _
    | succ k => exact ih k
  | name n l ih => cases k with
    | zero => exact Nat.zero_le _
    | succ k => exact ih (k + 1)
  | art c l ih => cases k with
    | zero => exact Nat.zero_le _
    | succ k => exact Nat.add_le_add_left (ih (k + 1)) c

/-- If no comparisons are left for the last element, all of them have been made when all elements are demanded. -/
theorem demandCost_all (l : CL X) (h : l.late = 0) (k : Nat) (hk : l.len ≤ k) : demandCost k l = l.tot := by
  induction l generalizing k with
  | nil => cases k <;> rfl
  | cons x l ih => cases k with
    | zero => exact absurd hk (Nat.not_succ_le_zero _)
    | succ k => exact ih h k (Nat.le_of_succ_le_succ hk)
  | name n l ih => cases k with
    | zero => rw [demandCost_zero]; exact (demandCost_zero l).symm.trans (ih h 0 hk)
    | succ k => exact ih h (k + 1) hk
  | art c l ih =>
    simp only [CL.late, Nat.add_eq_zero_iff] at h
    have hk : l.len ≤ k := hk
    cases k with
    | zero =>
      rw [if_pos (by omega)] at h
      have := ih h.2 0 hk
      show 0 = c + l.tot
      rw [demandCost_zero] at this
      omega
    | succ k => exact congrArg (c + ·) (ih h.2 (k + 1) hk)

/-- Nor are any made for the last element. -/
theorem demandCost_last (l : CL X) (h : l.late = 0) (k : Nat) (hk : l.len ≤ k + 1) :
    demandCost (k + 1) l = l.tot ∧ (0 < k → demandCost k l = l.tot) := by
  refine ⟨demandCost_all l h _ hk, ?_⟩
  induction l generalizing k with
  | nil => intro h; cases k <;> rfl
  | cons x l ih =>
    intro h0
    cases k with
    | zero => omega
    | succ k =>
      have hk : l.len ≤ k + 1 := Nat.le_of_succ_le_succ hk
      show demandCost k l = l.tot
      cases k with
      | zero =>
        rw [demandCost_zero]
        exact (tot_late l h hk).symm
      | succ k => exact ih h (k + 1) hk (Nat.succ_pos _)
  | name n l ih =>
    intro h0
    cases k with
    | zero => omega
    | succ k => exact ih h (k + 1) hk h0
  | art c l ih =>
    intro h0
    simp only [CL.late, Nat.add_eq_zero_iff] at h
    cases k with
    | zero => omega
    | succ k => exact congrArg (c + ·) (ih h.2 (k + 1) hk h0)
where
  tot_late (l : CL X) (h : l.late = 0) (hk : l.len ≤ 1) : l.tot = 0 := by
    induction l with
    | nil => rfl
    | cons x l ih => exact ih h (by simp only [CL.len] at hk; omega)
    | name n l ih => exact ih h hk
    | art c l ih =>
      simp only [CL.late, Nat.add_eq_zero_iff] at h
      have hk : l.len ≤ 1 := hk
      rw [if_pos hk] at h
      have := ih h.2 hk
      simp only [CL.tot]; omega

/-! ### The sorts, as merges along the tree -/

/-- Merges along the tree, with whatever names. -/
inductive CSort : Tree X → CL X × Nat → Prop
  | nil : CSort .nil (.nil, 0)
  | leaf (x : X) (m : Option Name) : CSort (.leaf x) (clNameOp m (.cons x .nil), 0)
  | bin {lev : Nat} {l r : Tree X} {a b : CL X × Nat} (n1 n2 : Option Name) : CSort l a → CSort r b → CSort (.bin lev l r) (cjoin H le n1 a n2 b)
  | name {n : Name} {lev : Nat} {l r : Tree X} {a b : CL X × Nat} (n1 n2 : Option Name) : CSort l a → CSort r b → CSort (.name n lev l r) (cjoin H le n1 a n2 b)
  | art {t : Tree X} {a : CL X × Nat} : CSort t a → CSort (.art t) a

theorem csort1_is (t : Tree X) : CSort H le t (csort1 H le t) := by
  induction t with
  | nil => exact .nil
  | leaf x => exact .leaf x none
  | bin lev l r ihl ihr => exact .bin none none ihl ihr
  | name n lev l r ihl ihr => exact .name _ _ ihl ihr
  | art t ih => exact .art ih
theorem csort2_is (t : Tree X) (nm : Option Name) : CSort H le t (csort2 H le t nm) := by
  induction t generalizing nm with
  | nil => exact .nil
  | leaf x => exact .leaf x nm
  | bin lev l r ihl ihr => exact .bin none none (ihl nm) (ihr none)
  | name n lev l r ihl ihr => exact .name none (some n) (ihl nm) (ihr (some n))
  | art t ih => exact .art (ih nm)
theorem csort3_is (t : Tree X) (nm : Option Name) : CSort H le t (csort3 H le t nm) := by
  induction t generalizing nm with
  | nil => exact .nil
  | leaf x => exact .leaf x nm
  | bin lev l r ihl ihr => exact .bin none none (ihl nm) (ihr none)
  | name n lev l r ihl ihr => exact .name none none (ihl nm) (ihr (some n))
  | art t ih => exact .art (ih nm)

/-- The height of a tree: the inner nodes on a longest path. -/
def Tree.height : Tree X → Nat
  | .nil => 0
  | .leaf _ => 0
  | .bin _ l r => max l.height r.height + 1
  | .name _ _ l r => max l.height r.height + 1
  | .art t => t.height

theorem leaves_bin (lev : Nat) (l r : Tree X) : (Tree.bin lev l r).leaves = l.leaves ++ r.leaves := by
  simp only [Tree.leaves, Tree.items, elmsOf_append]
theorem leaves_name (n : Name) (lev : Nat) (l r : Tree X) : (Tree.name n lev l r).leaves = l.leaves ++ r.leaves := by
  simp only [Tree.leaves, Tree.items, elmsOf_append, elmsOf]

theorem CSort.len {t : Tree X} {s : CL X × Nat} (h : CSort H le t s) : s.1.len = t.leaves.length := by
  induction h with
  | nil => rfl
  | leaf x m => rw [nameOp_len]; rfl
  | bin n1 n2 _ _ ih1 ih2 => rw [leaves_bin, List.length_append, ← ih1, ← ih2]; exact cmerge_len H le n1 _ n2 _
  | name n1 n2 _ _ ih1 ih2 => rw [leaves_name, List.length_append, ← ih1, ← ih2]; exact cmerge_len H le n1 _ n2 _
  | art _ ih => exact ih

theorem CSort.late {t : Tree X} {s : CL X × Nat} (h : CSort H le t s) : s.1.late = 0 := by
  induction h with
  | nil => rfl
  | leaf x m => rw [nameOp_late]; rfl
  | bin n1 n2 _ _ ih1 ih2 => exact (cmerge_late H le n1 _ n2 _ ih1 ih2).1
  | name n1 n2 _ _ ih1 ih2 => exact (cmerge_late H le n1 _ n2 _ ih1 ih2).1
  | art _ ih => exact ih

theorem mergeBound_le (a b : Nat) : mergeBound a b ≤ a + b := by
  unfold mergeBound; split <;> omega

/-- The step of the total. -/
theorem tot_step {a b h1 h2 x y m : Nat} (hx : x ≤ a * h1) (hy : y ≤ b * h2) (hm : m ≤ a + b) : x + y + m ≤ (a + b) * (max h1 h2 + 1) := by
  have e1 : a * h1 ≤ a * max h1 h2 := Nat.mul_le_mul_left a (Nat.le_max_left _ _)
  have e2 : b * h2 ≤ b * max h1 h2 := Nat.mul_le_mul_left b (Nat.le_max_right _ _)
  rw [Nat.mul_add, Nat.add_mul]
  omega

theorem cjoin_tot (n1 n2 : Option Name) (a b : CL X × Nat) : (cjoin H le n1 a n2 b).2 + (cjoin H le n1 a n2 b).1.tot ≤
    (a.2 + a.1.tot) + (b.2 + b.1.tot) + (a.1.len + b.1.len) := by
  have := cmerge_tot H le n1 a.1 n2 b.1
  have := mergeBound_le a.1.len b.1.len
  simp only [cjoin]; omega

theorem CSort.tot {t : Tree X} {s : CL X × Nat} (h : CSort H le t s) : s.2 + s.1.tot ≤ t.leaves.length * t.height := by
  induction h with
  | nil => exact Nat.le_refl _
  | leaf x m => simp [nameOp_tot, CL.tot]
  | bin n1 n2 h1 h2 ih1 ih2 =>
    rw [leaves_bin, List.length_append]
    refine Nat.le_trans (cjoin_tot H le n1 n2 _ _) (tot_step ih1 ih2 ?_)
    rw [h1.len, h2.len]; exact Nat.le_refl _
  | name n1 n2 h1 h2 ih1 ih2 =>
    rw [leaves_name, List.length_append]
    refine Nat.le_trans (cjoin_tot H le n1 n2 _ _) (tot_step ih1 ih2 ?_)
    rw [h1.len, h2.len]; exact Nat.le_refl _
  | art _ ih => exact ih

theorem CSort.bound {t : Tree X} {s : CL X × Nat} (h : CSort H le t s) (k : Nat) : sortCost s k ≤ t.leaves.length * t.height :=
  Nat.le_trans (Nat.add_le_add_left (demandCost_le k s.1) _) h.tot

/-- C82: whatever the tree, and however many elements are demanded, the sorts make at most as many comparisons as the tree has leaves, times its height:
`O(n log n)` for trees of logarithmic height.  No comparison depends on the names, nor on the articulations, in the tree. -/
theorem C82_total_comparisons (t : Tree X) (nm : Option Name) (k : Nat) :
    sortCost (csort1 H le t) k ≤ t.leaves.length * t.height ∧
    sortCost (csort2 H le t nm) k ≤ t.leaves.length * t.height ∧
    sortCost (csort3 H le t nm) k ≤ t.leaves.length * t.height :=
  ⟨(csort1_is H le t).bound H le k, (csort2_is H le t nm).bound H le k, (csort3_is H le t nm).bound H le k⟩

/-- C82: on a balanced tree, one with `2 ^ h` leaves and height `h`, that is `n log n` comparisons for `n` leaves. -/
theorem C82_n_log_n_when_balanced (t : Tree X) (ht : t.leaves.length = 2 ^ t.height) (nm : Option Name) (k : Nat) :
    sortCost (csort1 H le t) k ≤ t.leaves.length * t.leaves.length.log2 ∧
    sortCost (csort2 H le t nm) k ≤ t.leaves.length * t.leaves.length.log2 ∧
    sortCost (csort3 H le t nm) k ≤ t.leaves.length * t.leaves.length.log2 := by
  have h := C82_total_comparisons H le t nm k
  have e : t.leaves.length.log2 = t.height := by rw [ht, Nat.log2_two_pow]
  rw [e]; exact h

theorem CSort.last {t : Tree X} {s : CL X × Nat} (h : CSort H le t s) {k j : Nat} (h0 : 0 < k) (hk : t.leaves.length ≤ k + 1) (hj : k ≤ j) : sortCost s j = sortCost s k := by
  have hl := h.late
  have hn := h.len
  rw [← hn] at hk
  unfold sortCost
  rw [(demandCost_last s.1 hl k hk).2 h0]
  by_cases e : j = k
  · subst e; rw [(demandCost_last s.1 hl j hk).2 h0]
  · rw [demandCost_all s.1 hl j (by omega)]

/-- C82: demanding the last element takes no comparison: once all elements but one (and at least one) are there, nothing is compared any more. -/
theorem C82_last_element_is_free (t : Tree X) (nm : Option Name) {k j : Nat} (h0 : 0 < k) (hk : t.leaves.length ≤ k + 1) (hj : k ≤ j) :
    sortCost (csort1 H le t) j = sortCost (csort1 H le t) k ∧
    sortCost (csort2 H le t nm) j = sortCost (csort2 H le t nm) k ∧
    sortCost (csort3 H le t nm) j = sortCost (csort3 H le t nm) k :=
  ⟨(csort1_is H le t).last H le h0 hk hj, (csort2_is H le t nm).last H le h0 hk hj, (csort3_is H le t nm).last H le h0 hk hj⟩

/-! ### The first element, and each next one -/

/-- A list that is lazy throughout: what comes before its first element takes at most `b` comparisons, what comes between two elements at most `c`;
each element follows a name, or is the first and `f` says that there is a name for it. -/
inductive Lz (c : Nat) : Nat → Bool → CL X → Prop
  | nil {b : Nat} {f : Bool} : Lz c b f .nil
  | cons {b : Nat} {h : X} {u : CL X} : Lz c c false u → Lz c b true (.cons h u)
  | name {b : Nat} {f : Bool} {n : Name} {l : CL X} : Lz c b true l → Lz c b f (.name n l)
  | art {b : Nat} {f : Bool} {a : Nat} {l : CL X} : a ≤ b → Lz c (b - a) f l → Lz c b f (.art a l)

theorem Lz.mono {c b : Nat} {f : Bool} {l : CL X} (h : Lz c b f l) : ∀ {c' b' : Nat} {f' : Bool}, c ≤ c' → b ≤ b' → (f = true → f' = true) → Lz c' b' f' l := by
  induction h with
  | nil => intros; exact .nil
  | cons _ ih => intro c' b' f' hc hb hf; rw [hf rfl]; exact .cons (ih hc hc (fun h => h))
  | name _ ih => intro c' b' f' hc hb hf; exact .name (ih hc hb (fun h => h))
  | art ha _ ih => intro c' b' f' hc hb hf; exact .art (by omega) (ih hc (by omega) hf)

/-- Its leading articulations removed. -/
theorem Lz.strip {c b : Nat} {f : Bool} {l : CL X} (h : Lz c b f l) : l.vcost ≤ b ∧ Lz c (b - l.vcost) f l.strip := by
  induction h with
  | nil => exact ⟨Nat.zero_le _, .nil⟩
  | cons h _ => exact ⟨Nat.zero_le _, .cons h⟩
  | name h _ => exact ⟨Nat.zero_le _, .name h⟩
  | art ha _ ih => 
    simp only [CL.vcost, CL.strip]
    exact ⟨by omega, by rw [← Nat.sub_sub]; exact ih.2⟩

theorem Lz.strip_cons {c b : Nat} {f : Bool} {l : CL X} (h : Lz c b f l) {x : X} {t : CL X} (e : l.strip = .cons x t) : l.vcost ≤ b ∧ f = true ∧ Lz c c false t := by
  obtain ⟨h1, h2⟩ := h.strip
  rw [e] at h2
  cases h2 with
  | cons h => exact ⟨h1, rfl, h⟩
theorem Lz.strip_name {c b : Nat} {f : Bool} {l : CL X} (h : Lz c b f l) {n : Name} {t : CL X} (e : l.strip = .name n t) : l.vcost ≤ b ∧ Lz c (b - l.vcost) true t := by
  obtain ⟨h1, h2⟩ := h.strip
  rw [e] at h2
  cases h2 with
  | name h => exact ⟨h1, h⟩

theorem nameOp_lz {c b : Nat} {n : Option Name} {l : CL X} (h : Lz c b n.isSome l) : Lz c b false (clNameOp n l) := by
  cases n with
  | none => exact h
  | some n => exact .name h

/-- One comparison, if there are elements on both sides. -/
def oneIf (a b : Nat) : Nat := if a = 0 ∨ b = 0 then 0 else 1
theorem oneIf_le (a b : Nat) : oneIf a b ≤ 1 := by unfold oneIf; split <;> omega
theorem oneIf_pos {a b : Nat} (h1 : 0 < a) (h2 : 0 < b) : oneIf a b = 1 := if_neg (by omega)

/-- A merge of lazy lists is lazy: at most one comparison more before the first element, and at most one more between any two. -/
theorem cmerge_lazy (n1 : Option Name) (l1 : CL X) (n2 : Option Name) (l2 : CL X) : ∀ (c1 c2 b1 b2 : Nat), Lz c1 b1 n1.isSome l1 → Lz c2 b2 n2.isSome l2 →
    (cmerge H le n1 l1 n2 l2).2 ≤ b1 + b2 + oneIf l1.len l2.len ∧
    Lz (max c1 c2 + 1) (b1 + b2 + oneIf l1.len l2.len - (cmerge H le n1 l1 n2 l2).2) false (cmerge H le n1 l1 n2 l2).1 := by
  fun_induction cmerge H le n1 l1 n2 l2 with
  | case1 n1 l1 n2 l2 h1 =>
    intro c1 c2 b1 b2 g1 g2
    have := g1.strip.1
    exact ⟨by omega, (nameOp_lz g2).mono (by omega) (by omega) (fun h => h)⟩
  | case2 n1 l1 n2 l2 h1 t1 hv1 hv2 =>
    intro c1 c2 b1 b2 g1 g2
    obtain ⟨e1, f1, g1'⟩ := g1.strip_cons hv1
    have := g2.strip.1
    refine ⟨by omega, (nameOp_lz (c := c1) (b := 0) ?_).mono (by omega) (by omega) (fun h => h)⟩
    rw [f1]; exact .cons g1'
  | case3 l1 n2 l2 h1 t1 hv1 h2 t2 hv2 hle r ih =>
    intro c1 c2 b1 b2 g1 g2
    exact absurd (g1.strip_cons hv1).2.1 (by simp)
  | case4 l1 n2 l2 h1 t1 hv1 h2 t2 hv2 hle r n1 ih =>
    intro c1 c2 b1 b2 g1 g2
    obtain ⟨e1, f1, g1'⟩ := g1.strip_cons hv1
    obtain ⟨e2, f2, g2'⟩ := g2.strip_cons hv2
    obtain ⟨i1, i2⟩ := ih c1 c2 c1 0 g1' (by rw [f2]; exact .cons g2')
    have a1 := (strip_facts hv1).1
    have a2 := (strip_facts hv2).1
    rw [oneIf_pos (by rw [← a1]; exact Nat.succ_pos _) (by rw [← a2]; exact Nat.succ_pos _)]
    have := oneIf_le t1.len (CL.cons h2 t2).len
    have i1 : r.2 ≤ _ := i1
    have i2 : Lz _ (_ - r.2) false r.1 := i2
    exact ⟨by omega, .name (.cons (.art (by omega) (i2.mono (Nat.le_refl _) (by omega) (fun h => h))))⟩
  | case5 n1 l1 l2 h1 t1 hv1 h2 t2 hv2 hle r ih =>
    intro c1 c2 b1 b2 g1 g2
    exact absurd (g2.strip_cons hv2).2.1 (by simp)
  | case6 n1 l1 l2 h1 t1 hv1 h2 t2 hv2 hle r n2 ih =>
    intro c1 c2 b1 b2 g1 g2
    obtain ⟨e1, f1, g1'⟩ := g1.strip_cons hv1
    obtain ⟨e2, f2, g2'⟩ := g2.strip_cons hv2
    obtain ⟨i1, i2⟩ := ih c1 c2 0 c2 (by rw [f1]; exact .cons g1') g2'
    have a1 := (strip_facts hv1).1
    have a2 := (strip_facts hv2).1
    rw [oneIf_pos (by rw [← a1]; exact Nat.succ_pos _) (by rw [← a2]; exact Nat.succ_pos _)]
    have := oneIf_le (CL.cons h1 t1).len t2.len
    have i1 : r.2 ≤ _ := i1
    have i2 : Lz _ (_ - r.2) false r.1 := i2
    exact ⟨by omega, .name (.cons (.art (by omega) (i2.mono (Nat.le_refl _) (by omega) (fun h => h))))⟩
  | case7 n1 l1 n2 l2 h1 t1 hv1 m2 t2 hv2 r ih =>
    intro c1 c2 b1 b2 g1 g2
    obtain ⟨e1, f1, g1'⟩ := g1.strip_cons hv1
    obtain ⟨e2, g2'⟩ := g2.strip_name hv2
    obtain ⟨i1, i2⟩ := ih c1 c2 0 (b2 - l2.vcost) (by rw [f1]; exact .cons g1') g2'
    have a1 := (strip_facts hv1).1
    have a2 := (strip_facts hv2).1
    have i1 : r.2 ≤ _ := i1
    have i2 : Lz _ (_ - r.2) false r.1 := i2
    rw [← a1, ← a2]
    simp only [CL.len] at i1 i2 ⊢
    exact ⟨by omega, i2.mono (Nat.le_refl _) (by omega) (fun h => h)⟩
  | case8 n1 l1 n2 l2 h1 t1 hv1 a t2 hv2 => exact absurd hv2 CL.strip_art
  | case9 n1 l1 n2 l2 m1 t1 hv1 r ih =>
    intro c1 c2 b1 b2 g1 g2
    obtain ⟨e1, g1'⟩ := g1.strip_name hv1
    obtain ⟨i1, i2⟩ := ih c1 c2 (b1 - l1.vcost) b2 g1' g2
    have a1 := (strip_facts hv1).1
    have i1 : r.2 ≤ _ := i1
    have i2 : Lz _ (_ - r.2) false r.1 := i2
    rw [← a1]
    simp only [CL.len] at i1 i2 ⊢
    exact ⟨by omega, i2.mono (Nat.le_refl _) (by omega) (fun h => h)⟩
  | case10 n1 l1 n2 l2 a t hv => exact absurd hv CL.strip_art

/-- Every inner node has a name. -/
def Tree.AllNamed : Tree X → Prop
  | .nil => True
  | .leaf _ => True
  | .bin _ _ _ => False
  | .name _ _ l r => l.AllNamed ∧ r.AllNamed
  | .art t => t.AllNamed

/-- The comparisons of a lazy sort: `b` of them are left before the first element. -/
def LzSort (t : Tree X) (f : Bool) (s : CL X × Nat) : Prop := ∃ b, s.2 + b ≤ t.leaves.length - 1 ∧ Lz t.height b f s.1

theorem cjoin_lazy {n : Name} {lev : Nat} {l r : Tree X} {f1 f2 : Bool} {a b : CL X × Nat} (ha : CSort H le l a) (hb : CSort H le r b)
    (h1 : LzSort l f1 a) (h2 : LzSort r f2 b) {n1 n2 : Option Name} (g1 : f1 = true → n1.isSome = true) (g2 : f2 = true → n2.isSome = true) :
    LzSort (.name n lev l r) false (cjoin H le n1 a n2 b) := by
  obtain ⟨x, i1, i2⟩ := h1
  obtain ⟨y, j1, j2⟩ := h2
  obtain ⟨k1, k2⟩ := cmerge_lazy H le n1 a.1 n2 b.1 _ _ _ _ (i2.mono (Nat.le_refl _) (Nat.le_refl _) g1) (j2.mono (Nat.le_refl _) (Nat.le_refl _) g2)
  refine ⟨_, ?_, k2⟩
  rw [leaves_name, List.length_append]
  rw [ha.len, hb.len] at k1 ⊢
  simp only [cjoin]
  unfold oneIf at k1 ⊢
  split at k1 <;> rename_i h
  · rw [if_pos h]; omega
  · rw [if_neg h]; omega

theorem csort1_lazy {t : Tree X} (ht : t.AllNamed) : LzSort t true (csort1 H le t) := by
  induction t with
  | nil => exact ⟨0, Nat.le_refl _, .nil⟩
  | leaf x => exact ⟨0, Nat.le_refl _, .cons .nil⟩
  | bin lev l r ihl ihr => exact ht.elim
  | name n lev l r ihl ihr =>
    obtain ⟨b, h1, h2⟩ := cjoin_lazy H le (n := n) (lev := lev) (csort1_is H le l) (csort1_is H le r) (ihl ht.1) (ihr ht.2) (n1 := some (nameFork H n).1) (n2 := some (nameFork H n).2) (fun _ => rfl) (fun _ => rfl)
    exact ⟨b, h1, h2.mono (Nat.le_refl _) (Nat.le_refl _) (fun _ => rfl)⟩
  | art t ih => exact ih ht
theorem csort2_lazy {t : Tree X} (ht : t.AllNamed) (m : Name) : LzSort t false (csort2 H le t (some m)) := by
  induction t generalizing m with
  | nil => exact ⟨0, Nat.le_refl _, .nil⟩
  | leaf x => exact ⟨0, Nat.le_refl _, .name (.cons .nil)⟩
  | bin lev l r ihl ihr => exact ht.elim
  | name n lev l r ihl ihr =>
    exact cjoin_lazy H le (csort2_is H le l (some m)) (csort2_is H le r (some n)) (ihl ht.1 m) (ihr ht.2 n) (fun h => by cases h) (fun _ => rfl)
  | art t ih => exact ih ht m
theorem csort3_lazy {t : Tree X} (ht : t.AllNamed) (m : Name) : LzSort t false (csort3 H le t (some m)) := by
  induction t generalizing m with
  | nil => exact ⟨0, Nat.le_refl _, .nil⟩
  | leaf x => exact ⟨0, Nat.le_refl _, .name (.cons .nil)⟩
  | bin lev l r ihl ihr => exact ht.elim
  | name n lev l r ihl ihr =>
    exact cjoin_lazy H le (csort3_is H le l (some m)) (csort3_is H le r (some n)) (ihl ht.1 m) (ihr ht.2 n) (fun h => by cases h) (fun h => by cases h)
  | art t ih => exact ih ht m

theorem Lz.demand {c b : Nat} {f : Bool} {l : CL X} (h : Lz c b f l) (k : Nat) : demandCost 1 l ≤ b ∧ demandCost (k + 2) l ≤ demandCost (k + 1) l + c := by
  induction h generalizing k with
  | nil => exact ⟨Nat.zero_le _, Nat.zero_le _⟩
  | @cons b x u _ ih =>
    refine ⟨by simp [demandCost], ?_⟩
    show demandCost (k + 1) u ≤ demandCost k u + c
    cases k with
    | zero => rw [demandCost_zero]; exact Nat.le_trans (ih 0).1 (Nat.le_add_left _ _)
    | succ k => exact (ih k).2
  | name _ ih => exact ih k
  | @art b f a l ha _ ih =>
    have h1 := (ih k).1
    have h2 := (ih k).2
    refine ⟨?_, ?_⟩
    · show a + demandCost 1 l ≤ b
      omega
    · show a + demandCost (k + 2) l ≤ a + demandCost (k + 1) l + c
      omega

theorem LzSort.demand {t : Tree X} {f : Bool} {s : CL X × Nat} (h : LzSort t f s) (k : Nat) :
    sortCost s 1 ≤ t.leaves.length - 1 ∧ sortCost s (k + 2) ≤ sortCost s (k + 1) + t.height := by
  obtain ⟨b, h1, h2⟩ := h
  have h3 := (h2.demand k).1
  have h4 := (h2.demand k).2
  unfold sortCost
  omega

/-- C82: if every inner node of a tree has a name (and a name is given to the second and third sort), the first element takes fewer comparisons than the tree has leaves,
and each next one at most as many as the height of the tree. -/
theorem C82_first_and_next_elements (t : Tree X) (ht : t.AllNamed) (m : Name) (k : Nat) :
    (sortCost (csort1 H le t) 1 ≤ t.leaves.length - 1 ∧ sortCost (csort1 H le t) (k + 2) ≤ sortCost (csort1 H le t) (k + 1) + t.height) ∧
    (sortCost (csort2 H le t (some m)) 1 ≤ t.leaves.length - 1 ∧ sortCost (csort2 H le t (some m)) (k + 2) ≤ sortCost (csort2 H le t (some m)) (k + 1) + t.height) ∧
    (sortCost (csort3 H le t (some m)) 1 ≤ t.leaves.length - 1 ∧ sortCost (csort3 H le t (some m)) (k + 2) ≤ sortCost (csort3 H le t (some m)) (k + 1) + t.height) :=
  ⟨(csort1_lazy H le ht).demand k, (csort2_lazy H le ht m).demand k, (csort3_lazy H le ht m).demand k⟩

/-! ### The total is not `O(n log n)` for every tree -/

namespace CL
/-- The elements. -/
def elems : CL X → List X
  | nil => []
  | cons x l => x :: l.elems
  | name _ l => l.elems
  | art _ l => l.elems
theorem elems_strip (l : CL X) : l.strip.elems = l.elems := by
  induction l with
  | art c l ih => exact ih
  | _ => rfl
theorem elems_erase (l : CL X) : l.erase.elems = l.elems := by
  induction l with
  | nil => rfl
  | cons x l ih => exact congrArg (x :: ·) ih
  | name n l ih => exact ih
  | art c l ih => exact ih
end CL

/-- Merging with one element that comes last takes a comparison for each of the others. -/
theorem cmerge_worst (n1 : Option Name) (l1 : CL X) (n2 : Option Name) (l2 : CL X) : (∀ x ∈ l1.elems, ∀ y ∈ l2.elems, le x y = true) → l2.len = 1 →
    (cmerge H le n1 l1 n2 l2).2 + (cmerge H le n1 l1 n2 l2).1.tot = l1.tot + l2.tot + l1.len := by
  fun_induction cmerge H le n1 l1 n2 l2 with
  | case1 n1 l1 n2 l2 h1 =>
    intro g1 g2
    obtain ⟨a1, b1, _⟩ := strip_facts h1
    simp only [nameOp_tot, CL.len, CL.tot] at *; omega
  | case2 n1 l1 n2 l2 h1 t1 hv1 hv2 =>
    intro g1 g2
    obtain ⟨a2, b2, _⟩ := strip_facts hv2
    simp only [CL.len] at a2; omega
  | case3 l1 n2 l2 h1 t1 hv1 h2 t2 hv2 hle r ih =>
    intro g1 g2
    obtain ⟨a1, b1, _⟩ := strip_facts hv1
    obtain ⟨a2, b2, _⟩ := strip_facts hv2
    have e1 := l1.elems_strip
    have e2 := l2.elems_strip
    rw [hv1] at e1; rw [hv2] at e2
    rw [← e1, ← e2] at g1
    have ih : r.2 + r.1.tot = _ := ih (fun x hx => g1 x (List.mem_cons_of_mem _ hx)) (a2.trans g2)
    simp only [CL.tot, CL.len] at *; omega
  | case4 l1 n2 l2 h1 t1 hv1 h2 t2 hv2 hle r n1 ih =>
    intro g1 g2
    obtain ⟨a1, b1, _⟩ := strip_facts hv1
    obtain ⟨a2, b2, _⟩ := strip_facts hv2
    have e1 := l1.elems_strip
    have e2 := l2.elems_strip
    rw [hv1] at e1; rw [hv2] at e2
    rw [← e1, ← e2] at g1
    have ih : r.2 + r.1.tot = _ := ih (fun x hx => g1 x (List.mem_cons_of_mem _ hx)) (a2.trans g2)
    simp only [CL.tot, CL.len] at *; omega
  | case5 n1 l1 l2 h1 t1 hv1 h2 t2 hv2 hle r ih =>
    intro g1 g2
    have e1 := l1.elems_strip
    have e2 := l2.elems_strip
    rw [hv1] at e1; rw [hv2] at e2
    rw [← e1, ← e2] at g1
    exact absurd (g1 h1 (List.mem_cons_self ..) h2 (List.mem_cons_self ..)) hle
  | case6 n1 l1 l2 h1 t1 hv1 h2 t2 hv2 hle r n2 ih =>
    intro g1 g2
    have e1 := l1.elems_strip
    have e2 := l2.elems_strip
    rw [hv1] at e1; rw [hv2] at e2
    rw [← e1, ← e2] at g1
    exact absurd (g1 h1 (List.mem_cons_self ..) h2 (List.mem_cons_self ..)) hle
  | case7 n1 l1 n2 l2 h1 t1 hv1 m2 t2 hv2 r ih =>
    intro g1 g2
    obtain ⟨a1, b1, _⟩ := strip_facts hv1
    obtain ⟨a2, b2, _⟩ := strip_facts hv2
    have e1 := l1.elems_strip
    have e2 := l2.elems_strip
    rw [hv1] at e1; rw [hv2] at e2
    rw [← e1, ← e2] at g1
    have ih : r.2 + r.1.tot = _ := ih g1 (a2.trans g2)
    simp only [CL.tot, CL.len] at *; omega
  | case8 n1 l1 n2 l2 h1 t1 hv1 a t2 hv2 => exact absurd hv2 CL.strip_art
  | case9 n1 l1 n2 l2 m1 t1 hv1 r ih =>
    intro g1 g2
    obtain ⟨a1, b1, _⟩ := strip_facts hv1
    have e1 := l1.elems_strip
    rw [hv1] at e1
    rw [← e1] at g1
    have ih : r.2 + r.1.tot = _ := ih g1 g2
    simp only [CL.tot, CL.len] at *; omega
  | case10 n1 l1 n2 l2 a t hv => exact absurd hv CL.strip_art

/-- The numbers up to `k` in order, in a tree that leans to the left, each inner node with a name of its own. -/
def comb : Nat → Tree Nat
  | 0 => .leaf 0
  | k + 1 => .name (nameOfUsize H k) 0 (comb k) (.leaf (k + 1))

theorem comb_allNamed (k : Nat) : (comb H k).AllNamed := by
  induction k with
  | zero => trivial
  | succ k ih => exact ⟨ih, trivial⟩
theorem comb_leaves (k : Nat) : (comb H k).leaves = List.range (k + 1) := by
  induction k with
  | zero => rfl
  | succ k ih => rw [comb, leaves_name, ih, List.range_succ (n := k + 1)]; rfl

theorem CSort.perm {t : Tree X} {s : CL X × Nat} (h : CSort H le t s) : ∀ x, x ∈ s.1.elems ↔ x ∈ t.leaves := by
  have key : ∀ (n1 n2 : Option Name) (a b : CL X × Nat) (x : X), x ∈ (cjoin H le n1 a n2 b).1.elems ↔ x ∈ a.1.elems ∨ x ∈ b.1.elems := by
    intro n1 n2 a b x
    rw [← CL.elems_erase, cjoin_erase, (list_merge_perm H le n1 _ n2 _).mem_iff, List.mem_append, CL.elems_erase, CL.elems_erase]
  induction h with
  | nil => intro x; exact Iff.rfl
  | leaf x m => intro y; cases m <;> exact Iff.rfl
  | bin n1 n2 _ _ ih1 ih2 => intro x; rw [leaves_bin, List.mem_append, key, ih1, ih2]
  | name n1 n2 _ _ ih1 ih2 => intro x; rw [leaves_name, List.mem_append, key, ih1, ih2]
  | art _ ih => exact ih

theorem comb_cost (k : Nat) : ∀ s, CSort H Nat.ble (comb H k) s → 2 * (s.2 + s.1.tot) = k * (k + 1) := by
  induction k with
  | zero =>
    intro s h
    cases h with
    | leaf x m => simp [nameOp_tot, CL.tot]
  | succ k ih =>
    intro s h
    cases h with
    | @name _ _ _ _ a b n1 n2 ha hb =>
      cases hb with
      | leaf x m =>
        have h1 := ih a ha
        have h2 := cmerge_worst H Nat.ble n1 a.1 n2 (clNameOp m (.cons (k + 1) .nil)) (by
          intro x hx y hy
          rw [ha.perm, comb_leaves, List.mem_range] at hx
          have hy : y = k + 1 := by cases m <;> simpa [clNameOp, CL.elems] using hy
          rw [hy, Nat.ble_eq]; omega) (by rw [nameOp_len]; rfl)
        have h3 := ha.len
        rw [comb_leaves, List.length_range] at h3
        rw [h3, nameOp_tot] at h2
        have h4 : (CL.cons (k + 1) CL.nil).tot = 0 := rfl
        rw [h4] at h2
        simp only [cjoin]
        have e : (k + 1 + 1) * (k + 1) = k * (k + 1) + 2 * (k + 1) := by rw [← Nat.add_mul]
        have e' : (k + 1) * (k + 1 + 1) = k * (k + 1) + 2 * (k + 1) := by rw [Nat.mul_comm]; exact e
        omega

theorem comb_all (k : Nat) {s : CL Nat × Nat} (h : CSort H Nat.ble (comb H k) s) : 2 * sortCost s (k + 1) = k * (k + 1) := by
  rw [← comb_cost H k s h]
  unfold sortCost
  rw [demandCost_all s.1 h.late (k + 1) (by rw [h.len, comb_leaves, List.length_range]; exact Nat.le_refl _)]

/-- C82: the documented total, `O(n log n)` comparisons "for a tree with `n` leaves", does not hold for every tree: for each `k` there is one with `k + 1` leaves, each inner node named,
on which all three sorts make `k (k + 1) / 2` comparisons. -/
theorem C82_quadratic_on_unbalanced_trees (k : Nat) (nm : Option Name) : ∃ t : Tree Nat, t.AllNamed ∧ t.leaves = List.range (k + 1) ∧
    2 * sortCost (csort1 H Nat.ble t) (k + 1) = k * (k + 1) ∧ 2 * sortCost (csort2 H Nat.ble t nm) (k + 1) = k * (k + 1) ∧
    2 * sortCost (csort3 H Nat.ble t nm) (k + 1) = k * (k + 1) :=
  ⟨comb H k, comb_allNamed H k, comb_leaves H k, comb_all H k (csort1_is H _ _), comb_all H k (csort2_is H _ _ nm), comb_all H k (csort3_is H _ _ nm)⟩

/-- A balanced tree of eight leaves, each inner node with a name. -/
def eight : Tree Nat :=
  let n (k : Nat) := Name.mk (UInt64.ofNat k) (.usize k)
  .name (n 1) 3 (.art (.name (n 2) 2 (.name (n 3) 1 (.leaf 5) (.leaf 2)) (.name (n 4) 1 (.leaf 7) (.leaf 1))))
    (.name (n 5) 2 (.name (n 6) 1 (.leaf 8) (.leaf 3)) (.name (n 7) 1 (.leaf 6) (.leaf 4)))

/-- Some hash function of names. -/
def H1 : NameHash := ⟨fun a b => a + 3 * b, fun n => n.toUInt64, fun _ => 0, fun _ => 7, fun h i => 5 * h + i.toUInt64⟩

/-- The tree is as C82 wants it, the bounds are 7 for the first and 3 for each next element, and 24 in total; the sorts make 7, 9, 11, 13, 15, 16, 17 and 17 comparisons. -/
example : eight.AllNamed ∧ eight.leaves.length = 8 ∧ eight.height = 3 := ⟨by simp [eight, Tree.AllNamed], rfl, rfl⟩
example : (List.range 9).map (sortCost (csort1 H1 Nat.ble eight)) = [7, 7, 9, 11, 13, 15, 16, 17, 17] := by decide +kernel
example : (List.range 9).map (sortCost (csort3 H1 Nat.ble eight (some (nameOfUsize H1 9)))) = [7, 7, 9, 11, 13, 15, 16, 17, 17] := by decide +kernel
example : (csort1 H1 Nat.ble eight).1.elems = [1, 2, 3, 4, 5, 6, 7, 8] := by decide +kernel

end Adapton.Coll
