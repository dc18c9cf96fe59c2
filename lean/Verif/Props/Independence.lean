import Verif.Props.Consistency
import Verif.Props.Rerun
import Verif.Props.Macros
/-
C102: demands do not influence each other.  If, after the edits before it, each demand alone (with nothing else ever demanded) has an answer, then the session with
all edits and all demands, in whatever number and order, has a meaning, and each demand has the answer that it has alone.
-/
set_option linter.unusedSectionVars false
set_option linter.unusedVariables false
namespace Adapton
open Ref (Sig Kind Means Store Ext ES upd edit mayEdit keepStruct editorForce evalEd session emptyES)
variable {V : Type} [DecidableEq V]
namespace Indep

/-! ### Specification -/

/-- The editor program allocates and sets, in any namespaces and modes, and demands nothing. -/
inductive NoDemand : Prog V → Prop
  | ret (v : V) : NoDemand (.ret v)
  | cell (ty : Ty) (n : Name) (v : V) (k : Loc → Prog V) : (∀ l, NoDemand (k l)) → NoDemand (.cell ty n v k)
  | thunk (ty : Ty) (nc : NameChoice) (pp : ProgPt) (fn : FnId) (arg : V) (k : Loc → Prog V) : (∀ l, NoDemand (k l)) → NoDemand (.thunk ty nc pp fn arg k)
  | set (ty : Ty) (l : Loc) (v : V) (k : Prog V) : NoDemand k → NoDemand (.set ty l v k)
  | ns (n : Name) (body : Prog V) (k : V → Prog V) : NoDemand body → (∀ v, NoDemand (k v)) → NoDemand (.ns n body k)
  | structural (body : Prog V) (k : V → Prog V) : NoDemand body → (∀ v, NoDemand (k v)) → NoDemand (.structural body k)

/-- What the editor does: an edit, or a demand. -/
inductive Op (V : Type) where
  | edit (p : Prog V)
  | demand (ty : Ty) (l : Loc) (cyc : Option V)

def Op.prog : Op V → Prog V
  | .edit p => p
  | .demand ty l cyc => .force ty l cyc .ret

/-- The content of structural locations (named by the hash of the content) is as `κ` says.  Sessions that fit one `κ` have no collisions of hashes between them; a session
without structural locations fits every `κ`. -/
def Fits (κ σ : Store V) : Prop := ∀ l v, l.isStruct = true → σ l = some v → κ l = some v

/-- The session has a meaning; its last program has the result `v`. -/
def Result (sig : Sig) (env : Env V) (κ : Store V) (ps : List (Prog V)) (v : V) : Prop :=
  ∃ n e us, session sig env n ps emptyES = some (e, us ++ [v]) ∧ Fits κ e.cur

/-- After the edits `done`, each edit and each demand of the list has the given result in the session in which nothing else has been demanded. -/
inductive Alone (sig : Sig) (env : Env V) (κ : Store V) : List (Prog V) → List (Op V) → List V → Prop
  | nil (done : List (Prog V)) : Alone sig env κ done [] []
  | edit (done : List (Prog V)) (p : Prog V) (ops : List (Op V)) (v : V) (vs : List V) : NoDemand p → Result sig env κ (done ++ [p]) v →
      Alone sig env κ (done ++ [p]) ops vs → Alone sig env κ done (.edit p :: ops) (v :: vs)
  | demand (done : List (Prog V)) (ty : Ty) (l : Loc) (cyc : Option V) (ops : List (Op V)) (v : V) (vs : List V) : Result sig env κ (done ++ [.force ty l cyc .ret]) v →
      Alone sig env κ done ops vs → Alone sig env κ done (.demand ty l cyc :: ops) (v :: vs)

/-! ### Proof -/

/-- `e0`: only the edits; `e`: the edits and some demands. -/
structure Rel (κ : Store V) (e0 e : ES V) : Prop where
  same : e0.base = e0.cur
  nom : Ref.SameN e0.base e.base
  le : Ext e0.base e.base
  ext : Ext e.base e.cur
  fits : Fits κ e.cur

theorem edit_fst (e : ES V) (l : Loc) (v : V) : (edit e l v).base = upd e.base l v := by rw [Ref.edit_dec]
theorem upd_self (σ : Store V) (l : Loc) (v : V) : upd σ l v l = some v := if_pos rfl
theorem upd_ne {σ : Store V} {l x : Loc} {v : V} (h : x ≠ l) : upd σ l v x = σ x := if_neg h

theorem edit_cur_self (e : ES V) (l : Loc) (v : V) : (edit e l v).cur l = some v := by
  rw [Ref.edit_dec]
  show (if _ then upd e.cur l v else upd e.base l v) l = _
  split <;> exact upd_self _ _ _

theorem edit_cur_sub (e : ES V) (l x : Loc) (v : V) (hx : x ≠ l) (he : Ext e.base e.cur) (w : V) (h : (edit e l v).cur x = some w) : e.cur x = some w := by
  rw [Ref.edit_dec] at h
  have h : (if e.cur l = none ∨ e.cur l = some v then upd e.cur l v else upd e.base l v) x = some w := h
  split at h
  · rwa [upd_ne hx] at h
  · rw [upd_ne hx] at h; exact he _ _ h

theorem Rel.edit {κ : Store V} {e0 e : ES V} (h : Rel κ e0 e) (l : Loc) (v : V) (hk : l.isStruct = true → κ l = some v) : Rel κ (edit e0 l v) (edit e l v) where
  same := by
    rw [Ref.edit_dec, h.same]
    show upd e0.cur l v = if _ then upd e0.cur l v else upd e0.cur l v
    split <;> rfl
  nom := by
    intro x hx
    rw [edit_fst, edit_fst]
    by_cases hl : x = l
    · subst hl; rw [upd_self, upd_self]
    · rw [upd_ne hl, upd_ne hl]; exact h.nom x hx
  le := by
    intro x w hw
    rw [edit_fst] at hw ⊢
    by_cases hl : x = l
    · subst hl; rw [upd_self] at hw ⊢; exact hw
    · rw [upd_ne hl] at hw ⊢; exact h.le x w hw
  ext := Ref.edit_ext h.ext l v
  fits := by
    intro x w hx hw
    by_cases hl : x = l
    · subst hl
      rw [edit_cur_self] at hw
      cases hw
      exact hk hx
    · exact h.fits x w hx (edit_cur_sub e l x v hl h.ext w hw)

theorem Rel.mayEdit {κ : Store V} {e0 e : ES V} (h : Rel κ e0 e) (l : Loc) (v : V) (hk : l.isStruct = true → κ l = some v) : mayEdit e l v = true := by
  unfold Ref.mayEdit
  by_cases hs : l.isStruct = true
  · rcases hc : e.cur l with _ | w
    · simp
    · have := (hk hs).symm.trans (h.fits l w hs hc)
      cases this
      simp [ueq_eq]
  · simp [hs]

/-- Structural locations keep their content. -/
theorem mayEdit_keeps {e : ES V} {l x : Loc} {v w : V} (hm : Ref.mayEdit e l v = true) (hx : x.isStruct = true) (h : e.cur x = some w) (hb : e.base = e.cur) : (Ref.edit e l v).cur x = some w := by
  rw [Ref.edit_dec, hb]
  have : (if e.cur l = none ∨ e.cur l = some v then upd e.cur l v else upd e.cur l v) x = some w := by
    have h2 : upd e.cur l v x = some w := by
      by_cases hl : x = l
      · subst hl
        unfold Ref.mayEdit at hm
        rw [hx, h] at hm
        have : w = v := by simpa [ueq_eq] using hm
        rw [upd_self, this]
      · rw [upd_ne hl, h]
    split <;> exact h2
  exact this

section
variable {sig : Sig} {env : Env V} {R R' : Ref.Rec V} {cE cE' : Bool → Path → FnId → V → ES V → Option (ES V × V)}

theorem evalEd_keeps {p : Prog V} (hp : NoDemand p) : ∀ {m : Bool} {π : Path} {e e' : ES V} {v : V}, e.base = e.cur → evalEd sig env R cE m π p e = some (e', v) →
    e'.base = e'.cur ∧ ∀ x w, x.isStruct = true → e.cur x = some w → e'.cur x = some w := by
  have hsame : ∀ {e : ES V} (l : Loc) (v : V), e.base = e.cur → (edit e l v).base = (edit e l v).cur := by
    intro e l v h
    rw [Ref.edit_dec, h]
    show upd e.cur l v = if _ then upd e.cur l v else upd e.cur l v
    split <;> rfl
  induction hp with
  | ret v => intro m π e e' w hb h; cases h; exact ⟨hb, fun _ _ _ h => h⟩
  | cell ty n v k _ ih =>
    intro m π e e' w hb h
    simp only [evalEd] at h
    split at h
    · rename_i hc
      obtain ⟨g1, g2⟩ := ih _ (hsame _ _ hb) h
      exact ⟨g1, fun x u hx hu => g2 x u hx (mayEdit_keeps hc.2 hx hu hb)⟩
    · cases h
  | thunk ty nc pp fn arg k _ ih =>
    intro m π e e' w hb h
    simp only [evalEd] at h
    split at h
    · split at h
      · rename_i hc
        obtain ⟨g1, g2⟩ := ih _ (hsame _ _ hb) h
        exact ⟨g1, fun x u hx hu => g2 x u hx (mayEdit_keeps hc.2 hx hu hb)⟩
      · cases h
    · cases h
  | set ty l v k _ ih =>
    intro m π e e' w hb h
    simp only [evalEd] at h
    split at h
    · rename_i hc
      obtain ⟨g1, g2⟩ := ih (hsame _ _ hb) h
      refine ⟨g1, fun x u hx hu => g2 x u hx (mayEdit_keeps ?_ hx hu hb)⟩
      unfold Ref.mayEdit
      rw [hc.2.2]; rfl
    · cases h
  | ns n body k _ _ ih1 ih2 =>
    intro m π e e' w hb h
    simp only [evalEd] at h
    split at h
    · rename_i e1 v1 h1
      obtain ⟨g1, g2⟩ := ih1 hb h1
      obtain ⟨g3, g4⟩ := ih2 _ g1 h
      exact ⟨g3, fun x u hx hu => g4 x u hx (g2 x u hx hu)⟩
    · cases h
  | structural body k _ _ ih1 ih2 =>
    intro m π e e' w hb h
    simp only [evalEd] at h
    split at h
    · rename_i e1 v1 h1
      obtain ⟨g1, g2⟩ := ih1 hb h1
      obtain ⟨g3, g4⟩ := ih2 _ g1 h
      exact ⟨g3, fun x u hx hu => g4 x u hx (g2 x u hx hu)⟩
    · cases h

/-- The edits have the same results after demands. -/
theorem evalEd_rel {κ : Store V} {p : Prog V} (hp : NoDemand p) : ∀ {m : Bool} {π : Path} {e0 e e0' : ES V} {v : V}, Rel κ e0 e → evalEd sig env R cE m π p e0 = some (e0', v) →
    Fits κ e0'.cur → ∃ e', evalEd sig env R' cE' m π p e = some (e', v) ∧ Rel κ e0' e' := by
  induction hp with
  | ret v => intro m π e0 e e0' w hr h hf; cases h; exact ⟨e, rfl, hr⟩
  | cell ty n v k hk ih =>
    intro m π e0 e e0' w hr h hf
    simp only [evalEd] at h ⊢
    by_cases hc : sig (Ref.cellLoc env m π n v) = .cell ty ∧ Ref.mayEdit e0 (Ref.cellLoc env m π n v) v = true
    · rw [if_pos hc] at h
      have hb := (hr.edit (Ref.cellLoc env m π n v) v)
      have hκ : (Ref.cellLoc env m π n v).isStruct = true → κ (Ref.cellLoc env m π n v) = some v := by
        intro hs
        have hb0 : (edit e0 (Ref.cellLoc env m π n v) v).base = (edit e0 (Ref.cellLoc env m π n v) v).cur := by
          rw [Ref.edit_dec, hr.same]
          show upd e0.cur _ v = if _ then upd e0.cur _ v else upd e0.cur _ v
          split <;> rfl
        exact hf _ _ hs ((evalEd_keeps (hk _) hb0 h).2 _ _ hs (edit_cur_self _ _ _))
      rw [if_pos ⟨hc.1, hr.mayEdit _ _ hκ⟩]
      exact ih _ (hr.edit _ _ hκ) h hf
    · rw [if_neg hc] at h; cases h
  | thunk ty nc pp fn arg k hk ih =>
    intro m π e0 e e0' w hr h hf
    simp only [evalEd] at h ⊢
    rcases hl : Ref.thunkLoc env m π nc pp arg with _ | l
    · rw [hl] at h; cases h
    · rw [hl] at h
      simp only [] at h ⊢
      by_cases hc : sig l = .thunk ty pp fn ∧ Ref.mayEdit e0 l arg = true
      · rw [if_pos hc] at h
        have hκ : l.isStruct = true → κ l = some arg := by
          intro hs
          have hb0 : (edit e0 l arg).base = (edit e0 l arg).cur := by
            rw [Ref.edit_dec, hr.same]
            show upd e0.cur _ arg = if _ then upd e0.cur _ arg else upd e0.cur _ arg
            split <;> rfl
          exact hf _ _ hs ((evalEd_keeps (hk _) hb0 h).2 _ _ hs (edit_cur_self _ _ _))
        rw [if_pos ⟨hc.1, hr.mayEdit _ _ hκ⟩]
        exact ih _ (hr.edit _ _ hκ) h hf
      · rw [if_neg hc] at h; cases h
  | set ty l v k _ ih =>
    intro m π e0 e e0' w hr h hf
    simp only [evalEd] at h ⊢
    by_cases hc : sig l = .cell ty ∧ e0.cur l ≠ none ∧ l.isStruct = false
    · rw [if_pos hc] at h
      have hne : e.cur l ≠ none := by
        rcases hv : e0.cur l with _ | u
        · exact absurd hv hc.2.1
        · rw [hr.ext _ _ (hr.le _ _ (by rw [hr.same]; exact hv))]; simp
      rw [if_pos ⟨hc.1, hne, hc.2.2⟩]
      exact ih (hr.edit _ _ (fun hs => by rw [hc.2.2] at hs; cases hs)) h hf
    · rw [if_neg hc] at h; cases h
  | ns n body k _ hk ih1 ih2 =>
    intro m π e0 e e0' w hr h hf
    simp only [evalEd] at h ⊢
    rcases h1 : evalEd sig env R cE m (.child π n) body e0 with _ | ⟨e1, v1⟩
    · rw [h1] at h; cases h
    · rw [h1] at h
      have hb1 : e1.base = e1.cur := (evalEd_keeps ‹_› hr.same h1).1
      obtain ⟨e2, g1, g2⟩ := ih1 hr h1 (fun x u hx hu => hf x u hx ((evalEd_keeps (hk _) hb1 h).2 x u hx hu))
      rw [g1]
      exact ih2 _ g2 h hf
  | structural body k _ hk ih1 ih2 =>
    intro m π e0 e e0' w hr h hf
    simp only [evalEd] at h ⊢
    rcases h1 : evalEd sig env R cE true π body e0 with _ | ⟨e1, v1⟩
    · rw [h1] at h; cases h
    · rw [h1] at h
      have hb1 : e1.base = e1.cur := (evalEd_keeps ‹_› hr.same h1).1
      obtain ⟨e2, g1, g2⟩ := ih1 hr h1 (fun x u hx hu => hf x u hx ((evalEd_keeps (hk _) hb1 h).2 x u hx hu))
      rw [g1]
      exact ih2 _ g2 h hf

/-- What two stores that do not contradict each other say together. -/
def join (σ τ : Store V) : Store V := fun l => match σ l with
  | some v => some v
  | none => τ l
theorem join_left (σ τ : Store V) : Ext σ (join σ τ) := by
  intro l v h
  unfold join; rw [h]
theorem join_right {σ τ : Store V} (hc : ∀ l v w, σ l = some v → τ l = some w → v = w) : Ext τ (join σ τ) := by
  intro l v h
  unfold join
  rcases hs : σ l with _ | w
  · exact h
  · rw [hc l w v hs h]
theorem Fits.join {κ σ τ : Store V} (h1 : Fits κ σ) (h2 : Fits κ τ) : Fits κ (join σ τ) := by
  intro l v hl h
  unfold Indep.join at h
  rcases hs : σ l with _ | w
  · rw [hs] at h; exact h2 l v hl h
  · rw [hs] at h; cases h; exact h1 l _ hl hs
theorem Fits.sub {κ σ τ : Store V} (h : Fits κ τ) (he : Ext σ τ) : Fits κ σ := fun l v hl hs => h l v hl (he l v hs)

/-- A demand has the answer that it has after the edits alone. -/
theorem demand_rel {κ : Store V} {n : Nat} {m : Bool} {ty : Ty} {l : Loc} {e0 e e0' : ES V} {v : V} (hr : Rel κ e0 e) (h : Ref.demand sig (Ref.recN sig env n) m ty l e0 = some (e0', v)) (hf : Fits κ e0'.cur) :
    ∃ e', Ref.demand sig (Ref.recN sig env n) m ty l e = some (e', v) ∧ Rel κ e0 e' := by
  unfold Ref.demand at h ⊢
  rcases hs : sig l with ty' | ⟨ty', pp, fn⟩
  · rw [hs] at h
    simp only [] at h ⊢
    by_cases ht : ty' = ty
    · rw [if_pos ht] at h ⊢
      rcases hc : e0.cur l with _ | w
      · rw [hc] at h; cases h
      · rw [hc] at h
        cases h
        rw [hr.ext _ _ (hr.le _ _ (by rw [hr.same]; exact hc))]
        exact ⟨e, rfl, hr⟩
    · rw [if_neg ht] at h; cases h
  · rw [hs] at h
    simp only [] at h ⊢
    by_cases ht : ty' = ty ∧ m = sig.mode
    · rw [if_pos ht] at h ⊢
      rcases hc : editorForce (Ref.recN sig env n) l e0 with _ | ⟨σ0, v0⟩
      · rw [hc] at h; cases h
      · rw [hc] at h
        simp only [Option.some.injEq, Prod.mk.injEq] at h
        obtain ⟨he, rfl⟩ := h
        have hf0 : Fits κ σ0 := by rw [← he] at hf; exact hf
        have h0 : (Ref.recN sig env n).frc [] e0.base l = some (σ0, v0) := by
          unfold editorForce at hc
          rw [← hr.same] at hc
          rcases hx : (Ref.recN sig env n).frc [] e0.base l with _ | r
          · rw [hx] at hc; cases hc
          · rw [hx] at hc; exact hc
        have h0e := (Ref.recN_ok sig env n).frcExt _ _ _ _ _ h0
        -- it is enough to find a result above `e.base` that fits
        suffices hsuf : ∃ τ, editorForce (Ref.recN sig env n) l e = some (τ, v0) ∧ Ext e.base τ ∧ Fits κ τ by
          obtain ⟨τ, g1, g2, g3⟩ := hsuf
          rw [g1]
          refine ⟨_, rfl, hr.same, ?_, ?_, ?_, g3⟩
          · intro x hx
            show _ = keepStruct e.base τ x
            unfold keepStruct
            rw [if_neg (by simp [hx])]
            exact hr.nom x hx
          · intro x u hu
            show keepStruct e.base τ x = some u
            unfold keepStruct
            split
            · exact g2 _ _ (hr.le _ _ hu)
            · exact hr.le _ _ hu
          · intro x u hu
            have hu : keepStruct e.base τ x = some u := hu
            unfold keepStruct at hu
            split at hu
            · exact hu
            · exact g2 _ _ hu
        unfold editorForce
        rcases hx : (Ref.recN sig env n).frc [] e.cur l with _ | ⟨τ, w⟩
        · simp only []
          have hcomp : ∀ x a b, e.base x = some a → σ0 x = some b → a = b := by
            intro x a b ha hb
            by_cases hxs : x.isStruct = true
            · exact Option.some.inj ((hr.fits x a hxs (hr.ext _ _ ha)).symm.trans (hf0 x b hxs hb))
            · rw [← hr.nom x (by simpa using hxs)] at ha
              exact Option.some.inj ((h0e _ _ ha).symm.trans hb)
          obtain ⟨τ, g1, g2, g3⟩ := (Ref.recN_ok sig env n).frcStab _ _ _ _ _ e.base (join e.base σ0) h0 hr.le (join_left _ _) (join_right hcomp)
          exact ⟨τ, g1, (Ref.recN_ok sig env n).frcExt _ _ _ _ _ g1, Fits.sub (Fits.join (Fits.sub hr.fits hr.ext) hf0) g3⟩
        · have hle := hr.le.trans hr.ext
          obtain ⟨j1, rfl⟩ := (Ref.recN_join sig env n).frc _ _ _ _ _ _ _ _ h0 hx hle
          have hxe := (Ref.recN_ok sig env n).frcExt _ _ _ _ _ hx
          have hcomp : ∀ x a b, e.cur x = some a → σ0 x = some b → a = b := fun x a b ha hb => Option.some.inj ((hxe _ _ ha).symm.trans (j1 _ _ hb))
          obtain ⟨τ', g1, g2, g3⟩ := (Ref.recN_ok sig env n).frcStab _ _ _ _ _ e.cur (join e.cur σ0) h0 hle (join_left _ _) (join_right hcomp)
          rw [hx] at g1
          cases g1
          exact ⟨τ, rfl, hr.ext.trans hxe, Fits.sub (Fits.join hr.fits hf0) g3⟩
    · rw [if_neg ht] at h; cases h

theorem evalEd_congr {p : Prog V} (hp : NoDemand p) : ∀ {m : Bool} {π : Path} {e : ES V}, evalEd sig env R cE m π p e = evalEd sig env R' cE' m π p e := by
  induction hp with
  | ret v => intro m π e; rfl
  | cell ty n v k _ ih => intro m π e; simp only [evalEd, ih]
  | thunk ty nc pp fn arg k _ ih => intro m π e; simp only [evalEd, ih]
  | set ty l v k _ ih => intro m π e; simp only [evalEd, ih]
  | ns n body k _ _ ih1 ih2 => intro m π e; simp only [evalEd, ih1, ih2]
  | structural body k _ _ ih1 ih2 => intro m π e; simp only [evalEd, ih1, ih2]

theorem session_congr (n n' : Nat) : ∀ {ps : List (Prog V)} {e : ES V}, (∀ p ∈ ps, NoDemand p) → session sig env n ps e = session sig env n' ps e := by
  intro ps
  induction ps with
  | nil => intro e _; rfl
  | cons p ps ih =>
    intro e hp
    unfold session
    rw [evalEd_congr (hp p (List.mem_cons_self ..)) (R' := Ref.recN sig env n') (cE' := Ref.callEN sig env n')]
    rcases evalEd sig env (Ref.recN sig env n') (Ref.callEN sig env n') sig.mode .empty p e with _ | ⟨e1, v⟩
    · rfl
    · simp only []
      rw [ih fun q hq => hp q (List.mem_cons_of_mem _ hq)]

/-- Demands do not depend on the fuel. -/
theorem demand_more {n k : Nat} {m : Bool} {ty : Ty} {l : Loc} {e e' : ES V} {v : V} (he : Ext e.base e.cur) (h : Ref.demand sig (Ref.recN sig env n) m ty l e = some (e', v)) :
    Ref.demand sig (Ref.recN sig env (n + k)) m ty l e = some (e', v) := by
  unfold Ref.demand at h ⊢
  rcases hs : sig l with ty' | ⟨ty', pp, fn⟩
  · rw [hs] at h; exact h
  · rw [hs] at h
    simp only [] at h ⊢
    by_cases ht : ty' = ty ∧ m = sig.mode
    · rw [if_pos ht] at h ⊢
      rcases hc : editorForce (Ref.recN sig env n) l e with _ | x
      · rw [hc] at h; cases h
      · rw [hc] at h
        have hx : editorForce (Ref.recN sig env (n + k)) l e = some x := by
          have hle := Ref.recN_le (Ref.SigLe.refl sig) env n k
          have hsub : ∀ b : Loc, b ∈ ([] : List Loc) → b ∈ ([] : List Loc) := fun _ h => h
          unfold editorForce at hc ⊢
          rcases hf : (Ref.recN sig env n).frc [] e.cur l with _ | y
          · rw [hf] at hc
            have hc : (Ref.recN sig env n).frc [] e.base l = some x := hc
            have hb := hle.frc _ _ _ _ _ hc hsub
            rcases hg : (Ref.recN sig env (n + k)).frc [] e.cur l with _ | z
            · exact hb
            · exfalso
              obtain ⟨g1, _⟩ := (Ref.recN_join sig env (n + k)).frc _ _ _ _ _ _ _ _ hb hg he
              obtain ⟨τ', k1, _⟩ := (Ref.recN_ok sig env n).frcStab _ _ _ _ _ e.cur z.1 hc he ((Ref.recN_ok sig env (n + k)).frcExt _ _ _ _ _ hg) g1
              rw [hf] at k1; cases k1
          · rw [hf] at hc
            cases hc
            rw [hle.frc _ _ _ _ _ hf hsub]
        rw [hx]
        exact h
    · rw [if_neg ht] at h; cases h

theorem snoc_inj {us vs : List V} {v w : V} (h : us ++ [v] = vs ++ [w]) : v = w := by
  have := congrArg List.getLast? h
  simpa using this

theorem alone_session {κ : Store V} {done : List (Prog V)} {ops : List (Op V)} {vs : List V} (h : Alone sig env κ done ops vs) : ∀ {e0 e : ES V} {us : List V}, (∀ p ∈ done, NoDemand p) →
    (∀ n, session sig env n done emptyES = some (e0, us)) → Rel κ e0 e → ∃ N e', ∀ n, N ≤ n → session sig env n (ops.map Op.prog) e = some (e', vs) := by
  induction h with
  | nil done => intro e0 e us _ _ _; exact ⟨0, e, fun n _ => rfl⟩
  | edit done p ops v vs hp hres _ ih =>
    intro e0 e us hd h0 hr
    obtain ⟨n, e1, ws, h1, hf⟩ := hres
    obtain ⟨e2, xs, w, g1, g2, g3⟩ := Ref.session_snoc h1
    cases snoc_inj g3
    rw [h0 n] at g1
    cases g1
    obtain ⟨e', k1, k2⟩ := evalEd_rel (R' := Ref.recN sig env 0) (cE' := Ref.callEN sig env 0) hp hr g2 hf
    have hd' : ∀ q ∈ done ++ [p], NoDemand q := by
      intro q hq
      rcases List.mem_append.1 hq with hq | hq
      · exact hd q hq
      · cases List.mem_singleton.1 hq; exact hp
    obtain ⟨N, e'', hN⟩ := ih hd' (fun m => (session_congr m n hd').trans h1) k2
    refine ⟨N, e'', fun m hm => ?_⟩
    simp only [List.map_cons, session]
    rw [show (Op.edit p).prog = p from rfl, evalEd_congr hp (R' := Ref.recN sig env 0) (cE' := Ref.callEN sig env 0), k1]
    simp only []
    rw [hN m hm]
  | demand done ty l cyc ops v vs hres _ ih =>
    intro e0 e us hd h0 hr
    obtain ⟨n, e1, ws, h1, hf⟩ := hres
    obtain ⟨e2, xs, w, g1, g2, g3⟩ := Ref.session_snoc h1
    cases snoc_inj g3
    rw [h0 n] at g1
    cases g1
    have hdem : ∀ (k : Nat) (a b : ES V) (u : V), Ref.demand sig (Ref.recN sig env k) sig.mode ty l a = some (b, u) ↔ evalEd sig env (Ref.recN sig env k) (Ref.callEN sig env k) sig.mode .empty (.force ty l cyc .ret) a = some (b, u) := by
      intro k a b u
      simp only [evalEd]
      rcases Ref.demand sig (Ref.recN sig env k) sig.mode ty l a with _ | ⟨_, _⟩ <;> rfl
    obtain ⟨e', k1, k2⟩ := demand_rel hr ((hdem _ _ _ _).2 g2) hf
    obtain ⟨N, e'', hN⟩ := ih hd h0 k2
    refine ⟨max n N, e'', fun m hm => ?_⟩
    simp only [List.map_cons, session]
    have hnm : m = n + (m - n) := by have := Nat.le_max_left n N; omega
    have k3 : Ref.demand sig (Ref.recN sig env m) sig.mode ty l e = some (e', v) := by rw [hnm]; exact demand_more hr.ext k1
    rw [show (Op.demand ty l cyc : Op V).prog = .force ty l cyc .ret from rfl, (hdem _ _ _ _).1 k3]
    simp only []
    rw [hN m (Nat.le_trans (Nat.le_max_right ..) hm)]

/-- **C102.** If each demand of a session of edits and demands has an answer in the session in which just the edits before it are made and nothing else is demanded, then the whole session
has a meaning, with these answers. -/
theorem C102_demands_do_not_interfere (sig : Sig) (env : Env V) (κ : Store V) (ops : List (Op V)) (vs : List V) (h : Alone sig env κ [] ops vs) : Means sig env (ops.map Op.prog) vs := by
  obtain ⟨N, e', hN⟩ := alone_session h (e0 := emptyES) (e := emptyES) (us := []) (by simp) (fun n => rfl)
    ⟨rfl, fun _ _ => rfl, Ext.refl _, Ext.refl _, fun _ _ _ h => by cases h⟩
  exact ⟨N, e', hN N (Nat.le_refl _)⟩

/-- **C102, on the engine.** Then the engine returns, without panic, for each edit and each demand the result that it has alone, whatever else is demanded before. -/
theorem C102_engine (sig : Sig) (env : Env V) (κ : Store V) (ops : List (Op V)) (vs : List V) (h : Alone sig env κ [] ops vs) (purity : Bool) (hp : purity = true → sig.pu = true) :
    (∃ N s', ∀ n, N ≤ n → runSession env n (ops.map Op.prog) (initSt purity sig.mode) = .ok vs s') ∧
    (∀ n err s', runSession env n (ops.map Op.prog) (initSt purity sig.mode) ≠ .panic err s') ∧
    ∀ n vs' s', runSession env n (ops.map Op.prog) (initSt purity sig.mode) = .ok vs' s' → vs' = vs := by
  have hm := C102_demands_do_not_interfere sig env κ ops vs h
  obtain ⟨h1, h2⟩ := C02_terminates_without_panic sig env _ vs hm purity hp
  exact ⟨h1, h2, fun n vs' s' hr => C01_from_scratch_consistency sig env _ vs hm purity hp n vs' s' hr⟩

end

/-- The order in which two demands are made does not matter. -/
theorem Alone.swap {sig : Sig} {env : Env V} {κ : Store V} {done : List (Prog V)} {t1 t2 : Ty} {l1 l2 : Loc} {c1 c2 : Option V} {ops : List (Op V)} {v1 v2 : V} {vs : List V}
    (h : Alone sig env κ done (.demand t1 l1 c1 :: .demand t2 l2 c2 :: ops) (v1 :: v2 :: vs)) : Alone sig env κ done (.demand t2 l2 c2 :: .demand t1 l1 c1 :: ops) (v2 :: v1 :: vs) := by
  cases h with
  | demand _ _ _ _ _ _ _ h1 h =>
    cases h with
    | demand _ _ _ _ _ _ _ h2 h => exact .demand _ _ _ _ _ _ _ h2 (.demand _ _ _ _ _ _ _ h1 h)

end Indep

/-! ### A session that meets the hypotheses

Two thunks share a third one, which each of them allocates. -/
namespace IndepEx
open Indep

def nm (n : Nat) : Name := ⟨0, .usize n⟩
def at_ (n : Nat) : Loc := ⟨.empty, .nominal (nm n)⟩

def code : FnId → Nat → Prog Nat
  | 1, _ => .thunk 0 (.nominal (nm 3)) 3 3 0 fun l => .force 0 l none fun x => .ret (x + 1)
  | 2, _ => .thunk 0 (.nominal (nm 3)) 3 3 0 fun l => .force 0 l none fun x => .ret (x * 10)
  | 3, _ => .force 0 (at_ 0) none fun x => .ret (x * 2)
  -- two thunks that do not agree about the cell 4, and one that reads it
  | 5, _ => .cell 0 (nm 4) 1 fun _ => .ret 0
  | 6, _ => .cell 0 (nm 4) 2 fun _ => .ret 0
  | 7, _ => .force 0 (at_ 4) none .ret
  | _, _ => .panic
def env : Env Nat := ⟨code, fun _ => 0, fun _ _ => 0⟩
def kind (l : Loc) : Kind :=
  if l = at_ 0 then .cell 0 else if l = at_ 4 then .cell 0 else if l = at_ 1 then .thunk 0 1 1 else if l = at_ 2 then .thunk 0 2 2 else if l = at_ 3 then .thunk 0 3 3
  else if l = at_ 5 then .thunk 0 5 5 else if l = at_ 6 then .thunk 0 6 6 else .thunk 0 7 7
def sig : Sig := { kind := kind }

def start : Prog Nat := .cell 0 (nm 0) 5 fun _ => .thunk 0 (.nominal (nm 1)) 1 1 0 fun _ => .thunk 0 (.nominal (nm 2)) 2 2 0 fun _ => .ret 0
def change : Prog Nat := .set 0 (at_ 0) 7 (.ret 0)
def ops : List (Op Nat) := [.edit start, .demand 0 (at_ 1) none, .demand 0 (at_ 2) none, .demand 0 (at_ 1) none, .edit change, .demand 0 (at_ 2) none, .demand 0 (at_ 1) none]

def κ : Store Nat := fun _ => none
theorem fits_upd {σ : Store Nat} (h : Fits κ σ) (l : Loc) (v : Nat) (hl : l.isStruct = false) : Fits κ (upd σ l v) := by
  intro x w hx hw
  by_cases hxl : x = l
  · subst hxl; rw [hl] at hx; cases hx
  · rw [upd_ne hxl] at hw; exact h x w hx hw
theorem fits_empty : Fits κ (fun _ => none : Store Nat) := fun _ _ _ h => by cases h

def σ0 (a : Nat) : Store Nat := upd (upd (upd (fun _ => none) (at_ 0) a) (at_ 1) 0) (at_ 2) 0
def σ1 (a b : Nat) : Store Nat := upd (σ0 a) (at_ 0) b
theorem fits0 (a : Nat) : Fits κ (σ0 a) := fits_upd (fits_upd (fits_upd fits_empty _ _ rfl) _ _ rfl) _ _ rfl
theorem fits1 (a b : Nat) : Fits κ (σ1 a b) := fits_upd (fits0 a) _ _ rfl

example : session sig env 10 [start, .force 0 (at_ 1) none .ret] emptyES = some (⟨keepStruct (σ0 5) (upd (σ0 5) (at_ 3) 0), upd (σ0 5) (at_ 3) 0⟩, [0, 11]) := rfl

theorem alone : Alone sig env κ [] ops [0, 11, 100, 11, 0, 140, 15] := by
  refine .edit _ _ _ _ _ (.cell _ _ _ _ fun _ => .thunk _ _ _ _ _ _ fun _ => .thunk _ _ _ _ _ _ fun _ => .ret _) ⟨10, ⟨σ0 5, σ0 5⟩, [], rfl, fits0 5⟩ ?_
  refine .demand _ _ _ _ _ _ _ ⟨10, ⟨keepStruct (σ0 5) (upd (σ0 5) (at_ 3) 0), upd (σ0 5) (at_ 3) 0⟩, [0], rfl, fits_upd (fits0 5) _ _ rfl⟩ ?_
  refine .demand _ _ _ _ _ _ _ ⟨10, ⟨keepStruct (σ0 5) (upd (σ0 5) (at_ 3) 0), upd (σ0 5) (at_ 3) 0⟩, [0], rfl, fits_upd (fits0 5) _ _ rfl⟩ ?_
  refine .demand _ _ _ _ _ _ _ ⟨10, ⟨keepStruct (σ0 5) (upd (σ0 5) (at_ 3) 0), upd (σ0 5) (at_ 3) 0⟩, [0], rfl, fits_upd (fits0 5) _ _ rfl⟩ ?_
  refine .edit _ _ _ _ _ (.set _ _ _ _ (.ret _)) ⟨10, ⟨σ1 5 7, σ1 5 7⟩, [0], rfl, fits1 5 7⟩ ?_
  refine .demand _ _ _ _ _ _ _ ⟨10, ⟨keepStruct (σ1 5 7) (upd (σ1 5 7) (at_ 3) 0), upd (σ1 5 7) (at_ 3) 0⟩, [0, 0], rfl, fits_upd (fits1 5 7) _ _ rfl⟩ ?_
  refine .demand _ _ _ _ _ _ _ ⟨10, ⟨keepStruct (σ1 5 7) (upd (σ1 5 7) (at_ 3) 0), upd (σ1 5 7) (at_ 3) 0⟩, [0, 0], rfl, fits_upd (fits1 5 7) _ _ rfl⟩ ?_
  exact .nil _

/-- So the engine gives these answers. -/
example : ∃ N s', ∀ n, N ≤ n → runSession env n (ops.map Op.prog) (initSt true false) = .ok [0, 11, 100, 11, 0, 140, 15] s' :=
  (C102_engine sig env κ ops _ alone true (fun _ => rfl)).1

def result {α : Type} : Out Nat α → Option α
  | .ok a _ => some a
  | _ => none

/-- The condition is needed: the thunk 7 reads a cell that only other thunks allocate, so that its demand has no answer alone, and what it returns depends on which of them has been
demanded last. -/
theorem C102_needs_own_answers : result (runSession env 10 [.thunk 0 (.nominal (nm 5)) 5 5 0 fun _ => .thunk 0 (.nominal (nm 6)) 6 6 0 fun _ => .thunk 0 (.nominal (nm 7)) 7 7 0 fun _ => .ret 0,
    .force 0 (at_ 5) none .ret, .force 0 (at_ 7) none .ret, .force 0 (at_ 6) none .ret, .force 0 (at_ 7) none .ret] (initSt true false)) = some [0, 0, 1, 0, 2] := by decide +kernel

end IndepEx
end Adapton
