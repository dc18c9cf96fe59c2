import Verif.Reflect.LexPrint
/-
Parsing of the tokens of a printed value.
-/
namespace Adapton.Reflect

variable (H : NameHash)

theorem PRes.bind_ok {α β : Type} {x : PRes α} {f : α → PRes β} {b : β} (h : x.bind f = .ok b) : ∃ a, x = .ok a ∧ f a = .ok b := by
  cases x with
  | ok a => exact ⟨a, rfl, h⟩
  | panic => cases h
  | fuel => cases h

theorem PRes.bind_nf {α β : Type} {x : PRes α} {f : α → PRes β} (hx : x ≠ .fuel) (hf : ∀ a, x = .ok a → f a ≠ .fuel) : x.bind f ≠ .fuel := by
  cases x with
  | ok a => exact hf a rfl
  | panic => intro h; cases h
  | fuel => exact absurd rfl hx

/-! ## The name readers never run out of fuel (they use none) -/

theorem nameOfVal_nf : ∀ v : Val, nameOfVal H v ≠ .fuel
  | .constr c args => by
    unfold nameOfVal
    split; · intro h; cases h
    split; · intro h; cases h
    split; · split <;> (intro h; cases h)
    split; · split <;> (intro h; cases h)
    split; · intro h; cases h
    split
    · split
      · rename_i a b _
        exact PRes.bind_nf (nameOfVal_nf a) fun _ _ => PRes.bind_nf (nameOfVal_nf b) fun _ _ h => by cases h
      · rename_i a
        exact PRes.bind_nf (nameOfVal_nf a) fun _ _ h => by cases h
      · intro h; cases h
    split
    · split
      · rename_i a _
        exact PRes.bind_nf (nameOfVal_nf a) fun _ _ h => by cases h
      · intro h; cases h
    split
    · split
      · rename_i a _
        exact PRes.bind_nf (nameOfVal_nf a) fun _ _ h => by cases h
      · intro h; cases h
    intro h; cases h
  | .name n => by rw [nameOfVal]; intro h; cases h
  | .tuple _ => by rw [nameOfVal] <;> intros <;> first | (intro h; cases h) | (rename_i h; cases h)
  | .vec _ => by rw [nameOfVal] <;> intros <;> first | (intro h; cases h) | (rename_i h; cases h)
  | .struct _ _ => by rw [nameOfVal] <;> intros <;> first | (intro h; cases h) | (rename_i h; cases h)
  | .art _ => by rw [nameOfVal] <;> intros <;> first | (intro h; cases h) | (rename_i h; cases h)
  | .const _ => by rw [nameOfVal] <;> intros <;> first | (intro h; cases h) | (rename_i h; cases h)

theorem nameOptionOfVal_nf : ∀ v : Val, nameOptionOfVal H v ≠ .fuel
  | .constr c args => by
    unfold nameOptionOfVal
    split; · intro h; cases h
    split; · intro h; cases h
    split; · split <;> (intro h; cases h)
    split; · split <;> (intro h; cases h)
    split; · intro h; cases h
    split
    · split
      · rename_i a b _
        exact PRes.bind_nf (nameOptionOfVal_nf a) fun _ _ => PRes.bind_nf (nameOptionOfVal_nf b) fun _ _ h => by
          revert h; split <;> (intro h; cases h)
      · intro h; cases h
    split
    · split
      · rename_i a _
        exact PRes.bind_nf (nameOptionOfVal_nf a) fun o _ h => by cases o <;> cases h
      · intro h; cases h
    split
    · split
      · rename_i a _
        exact PRes.bind_nf (nameOptionOfVal_nf a) fun o _ h => by cases o <;> cases h
      · intro h; cases h
    intro h; cases h
  | .name n => by rw [nameOptionOfVal]; intro h; cases h
  | .tuple _ => by rw [nameOptionOfVal] <;> intros <;> first | (intro h; cases h) | (rename_i h; cases h)
  | .vec _ => by rw [nameOptionOfVal] <;> intros <;> first | (intro h; cases h) | (rename_i h; cases h)
  | .struct _ _ => by rw [nameOptionOfVal] <;> intros <;> first | (intro h; cases h) | (rename_i h; cases h)
  | .art _ => by rw [nameOptionOfVal] <;> intros <;> first | (intro h; cases h) | (rename_i h; cases h)
  | .const _ => by rw [nameOptionOfVal] <;> intros <;> first | (intro h; cases h) | (rename_i h; cases h)

theorem namesOfVals_nf : ∀ vs : List Val, namesOfVals H vs ≠ .fuel
  | [] => by intro h; cases h
  | v :: vs => PRes.bind_nf (nameOfVal_nf H v) fun _ _ => PRes.bind_nf (namesOfVals_nf vs) fun _ _ h => by cases h

theorem pathOfVal_nf (v : Val) : pathOfVal H v ≠ .fuel := by
  unfold pathOfVal
  split
  · exact namesOfVals_nf H _
  · intro h; cases h

theorem parseArtVal_nf (i : List Char) (fs : List (Name × Val)) : parseArtVal H i fs ≠ .fuel := by
  unfold parseArtVal
  split
  · split
    · split
      · split
        · split
          · exact PRes.bind_nf (pathOfVal_nf H _) fun _ _ => PRes.bind_nf (nameOfVal_nf H _) fun _ _ h => by cases h
          · intro h; cases h
        · intro h; cases h
      · intro h; cases h
    · intro h; cases h
  · intro h; cases h

/-! ## Fuel -/

/-- With fuel above twice the number of tokens the parser never runs out; and it consumes tokens. -/
theorem parse_fuel : ∀ k,
    (∀ ts, 2 * ts.length + 1 ≤ k → parseRec H k ts ≠ .fuel ∧ ∀ v r, parseRec H k ts = .ok (v, r) → r.length < ts.length) ∧
    (∀ ts acc bal, 2 * ts.length + 2 ≤ k →
      parseVals H k ts acc bal ≠ .fuel ∧ ∀ v r, parseVals H k ts acc bal = .ok (v, r) → r.length < ts.length) ∧
    (∀ ts acc bal, 2 * ts.length + 2 ≤ k →
      parseFields H k ts acc bal ≠ .fuel ∧ ∀ v r, parseFields H k ts acc bal = .ok (v, r) → r.length < ts.length)
  | 0 => ⟨(fun _ h => by omega), (fun _ _ _ h => by omega), (fun _ _ _ h => by omega)⟩
  | k + 1 => by
    obtain ⟨ih1, ih2, ih3⟩ := parse_fuel k
    have t1 : ∀ {α : Type}, (PRes.panic : PRes α) ≠ .fuel := fun h => by cases h
    refine ⟨?_, ?_, ?_⟩
    · intro ts hk
      match ts with
      | [] => exact ⟨t1, (fun _ _ h => by cases h)⟩
      | .right _ :: _ => exact ⟨t1, (fun _ _ h => by cases h)⟩
      | .comma :: _ => exact ⟨t1, (fun _ _ h => by cases h)⟩
      | .colon :: _ => exact ⟨t1, (fun _ _ h => by cases h)⟩
      | .left .brace :: _ => exact ⟨t1, (fun _ _ h => by cases h)⟩
      | .const c :: ts => exact ⟨(fun h => by cases h), (fun _ _ h => by cases h; simp)⟩
      | .left .bracket :: ts =>
        have := ih2 ts [] (.right .bracket) (by simp at hk; omega)
        simp only [parseRec]
        refine ⟨PRes.bind_nf this.1 (fun _ _ h => by cases h), fun v r h => ?_⟩
        obtain ⟨a, ha, h⟩ := PRes.bind_ok h
        cases h
        have := this.2 _ _ ha
        simp; omega
      | .left .paren :: ts =>
        have := ih2 ts [] (.right .paren) (by simp at hk; omega)
        simp only [parseRec]
        refine ⟨PRes.bind_nf this.1 (fun _ _ h => by cases h), fun v r h => ?_⟩
        obtain ⟨a, ha, h⟩ := PRes.bind_ok h
        cases h
        have := this.2 _ _ ha
        simp; omega
      | [.ident i] => exact ⟨(fun h => by cases h), (fun _ _ h => by cases h; simp)⟩
      | .ident i :: .comma :: ts => exact ⟨(fun h => by cases h), (fun _ _ h => by cases h; simp)⟩
      | .ident i :: .right b :: ts => exact ⟨(fun h => by cases h), (fun _ _ h => by cases h; simp)⟩
      | .ident i :: .left .bracket :: ts => exact ⟨t1, (fun _ _ h => by cases h)⟩
      | .ident i :: .colon :: ts => exact ⟨t1, (fun _ _ h => by cases h)⟩
      | .ident i :: .ident _ :: ts => exact ⟨t1, (fun _ _ h => by cases h)⟩
      | .ident i :: .const _ :: ts => exact ⟨t1, (fun _ _ h => by cases h)⟩
      | .ident i :: .left .brace :: ts =>
        have := ih3 ts [] (.right .brace) (by simp at hk; omega)
        simp only [parseRec]
        refine ⟨PRes.bind_nf this.1 fun _ _ => PRes.bind_nf (parseArtVal_nf H _ _) (fun o _ h => by cases o <;> cases h), fun v r h => ?_⟩
        obtain ⟨a, ha, h⟩ := PRes.bind_ok h
        obtain ⟨o, ho, h⟩ := PRes.bind_ok h
        have := this.2 _ _ ha
        cases o <;> cases h <;> simp <;> omega
      | .ident i :: .left .paren :: ts =>
        have := ih2 ts [] (.right .paren) (by simp at hk; omega)
        simp only [parseRec]
        refine ⟨PRes.bind_nf this.1 fun _ _ => PRes.bind_nf (nameOptionOfVal_nf H _) (fun o _ h => by cases o <;> cases h), fun v r h => ?_⟩
        obtain ⟨a, ha, h⟩ := PRes.bind_ok h
        obtain ⟨o, ho, h⟩ := PRes.bind_ok h
        have := this.2 _ _ ha
        cases o <;> cases h <;> simp <;> omega
    · intro ts acc bal hk
      match ts with
      | [] => exact ⟨t1, (fun _ _ h => by cases h)⟩
      | t :: ts =>
        simp only [parseVals]
        split
        · exact ⟨(fun h => by cases h), (fun _ _ h => by cases h; simp)⟩
        · split
          · have := ih2 ts acc bal (by simp at hk; omega)
            exact ⟨this.1, fun v r h => by have := this.2 v r h; simp; omega⟩
          · have h1 := ih1 (t :: ts) (by omega)
            refine ⟨PRes.bind_nf h1.1 fun a ha => ?_, fun v r h => ?_⟩
            · have := h1.2 a.1 a.2 ha
              exact (ih2 a.2 _ bal (by simp at hk this; omega)).1
            · obtain ⟨a, ha, h⟩ := PRes.bind_ok h
              have h3 := h1.2 a.1 a.2 ha
              have := (ih2 a.2 _ bal (by simp at hk h3; omega)).2 v r h
              omega
    · intro ts acc bal hk
      match ts with
      | [] => exact ⟨t1, (fun _ _ h => by cases h)⟩
      | t :: ts =>
        simp only [parseFields]
        split
        · exact ⟨(fun h => by cases h), (fun _ _ h => by cases h; simp)⟩
        · split
          · have := ih3 ts acc bal (by simp at hk; omega)
            exact ⟨this.1, fun v r h => by have := this.2 v r h; simp; omega⟩
          · split
            · split
              · rename_i ts
                have h1 := ih1 ts (by simp at hk; omega)
                refine ⟨PRes.bind_nf h1.1 fun a ha => ?_, fun v r h => ?_⟩
                · have := h1.2 a.1 a.2 ha
                  exact (ih3 a.2 _ bal (by simp at hk this; omega)).1
                · obtain ⟨a, ha, h⟩ := PRes.bind_ok h
                  have h3 := h1.2 a.1 a.2 ha
                  have := (ih3 a.2 _ bal (by simp at hk h3; omega)).2 v r h
                  simp; omega
              · exact ⟨t1, (fun _ _ h => by cases h)⟩
            · exact ⟨t1, (fun _ _ h => by cases h)⟩

theorem bind_mono {α β : Type} {x x' : PRes α} {f f' : α → PRes β} (hx : x ≠ .fuel → x' = x) (hf : ∀ a, f a ≠ .fuel → f' a = f a)
    (h : x.bind f ≠ .fuel) : x'.bind f' = x.bind f := by
  cases x with
  | ok a => rw [hx (fun h => by cases h)]; exact hf a h
  | panic => rw [hx (fun h => by cases h)]; rfl
  | fuel => exact absurd rfl h

theorem parseFields_cons (k : Nat) (t : Tok) (ts : List Tok) (acc : List (Name × Val)) (bal : Tok) :
    parseFields H (k + 1) (t :: ts) acc bal =
      if t = bal then .ok (acc, ts)
      else if t = .comma then parseFields H k ts acc bal
      else match t with
        | .ident i =>
          match ts with
          | .colon :: ts => (parseRec H k ts).bind fun r => parseFields H k r.2 (acc ++ [(nameOfChars H i, r.1)]) bal
          | _ => .panic
        | _ => .panic := by
  conv => lhs; unfold parseFields
  rfl

/-- More fuel changes nothing. -/
theorem parse_mono : ∀ k,
    (∀ ts, parseRec H k ts ≠ .fuel → parseRec H (k + 1) ts = parseRec H k ts) ∧
    (∀ ts acc bal, parseVals H k ts acc bal ≠ .fuel → parseVals H (k + 1) ts acc bal = parseVals H k ts acc bal) ∧
    (∀ ts acc bal, parseFields H k ts acc bal ≠ .fuel → parseFields H (k + 1) ts acc bal = parseFields H k ts acc bal)
  | 0 => ⟨fun _ h => absurd rfl h, fun _ _ _ h => absurd rfl h, fun _ _ _ h => absurd rfl h⟩
  | k + 1 => by
    obtain ⟨ih1, ih2, ih3⟩ := parse_mono k
    refine ⟨?_, ?_, ?_⟩
    · intro ts h
      match ts with
      | [] => rfl
      | .right _ :: _ => rfl
      | .comma :: _ => rfl
      | .colon :: _ => rfl
      | .left .brace :: _ => rfl
      | .const c :: ts => rfl
      | .left .bracket :: ts => exact bind_mono (ih2 ts [] _) (fun _ _ => rfl) h
      | .left .paren :: ts => exact bind_mono (ih2 ts [] _) (fun _ _ => rfl) h
      | [.ident i] => rfl
      | .ident i :: .comma :: ts => rfl
      | .ident i :: .right b :: ts => rfl
      | .ident i :: .left .bracket :: ts => rfl
      | .ident i :: .colon :: ts => rfl
      | .ident i :: .ident _ :: ts => rfl
      | .ident i :: .const _ :: ts => rfl
      | .ident i :: .left .brace :: ts => exact bind_mono (ih3 ts [] _) (fun _ _ => rfl) h
      | .ident i :: .left .paren :: ts => exact bind_mono (ih2 ts [] _) (fun _ _ => rfl) h
    · intro ts acc bal h
      match ts with
      | [] => rfl
      | t :: ts =>
        rw [parseVals] at h ⊢
        rw [parseVals]
        by_cases h1 : t = bal
        · rw [if_pos h1, if_pos h1]
        · rw [if_neg h1] at h ⊢
          rw [if_neg h1]
          by_cases h2 : t = .comma
          · rw [if_pos h2] at h ⊢
            rw [if_pos h2]
            exact ih2 _ _ _ h
          · rw [if_neg h2] at h ⊢
            rw [if_neg h2]
            exact bind_mono (ih1 _) (fun a => ih2 _ _ _) h
    · intro ts acc bal h
      match ts with
      | [] => rfl
      | t :: ts =>
        rw [parseFields_cons] at h ⊢
        rw [parseFields_cons]
        by_cases h1 : t = bal
        · rw [if_pos h1, if_pos h1]
        · rw [if_neg h1] at h ⊢
          rw [if_neg h1]
          by_cases h2 : t = .comma
          · rw [if_pos h2] at h ⊢
            rw [if_pos h2]
            exact ih3 _ _ _ h
          · rw [if_neg h2] at h ⊢
            rw [if_neg h2]
            match t, ts with
            | .ident i, .colon :: ts => exact bind_mono (ih1 _) (fun a => ih3 _ _ _) h
            | .ident i, [] => rfl
            | .ident i, .comma :: ts => rfl
            | .ident i, .ident _ :: ts => rfl
            | .ident i, .left _ :: ts => rfl
            | .ident i, .right _ :: ts => rfl
            | .ident i, .const _ :: ts => rfl
            | .left _, _ => rfl
            | .right _, _ => rfl
            | .colon, _ => rfl
            | .comma, _ => rfl
            | .const _, _ => rfl

end Adapton.Reflect
