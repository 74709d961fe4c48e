import Verif.Model.Basic
import Mathlib.Data.List.Nodup
import Mathlib.Tactic.Linarith

/-! Lemmas about the Python vocabulary. -/

namespace Teacher

/-! ## `mapM` in `Py` -/

@[simp] theorem py_pure {α : Type} (a : α) : (pure a : Py α) = .ok a := rfl
@[simp] theorem py_bind_ok {α β : Type} (a : α) (f : α → Py β) : ((.ok a : Py α) >>= f) = f a := rfl
@[simp] theorem py_bind_error {α β : Type} (e : PyErr) (f : α → Py β) :
    ((.error e : Py α) >>= f) = .error e := rfl

theorem py_bind_eq_ok {α β : Type} {x : Py α} {f : α → Py β} {b : β} :
    (x >>= f) = .ok b ↔ ∃ a, x = .ok a ∧ f a = .ok b := by
  cases x with
  | error e => simp
  | ok a => simp

theorem py_bind_eq_error {α β : Type} {x : Py α} {f : α → Py β} {e : PyErr} :
    (x >>= f) = .error e ↔ x = .error e ∨ ∃ a, x = .ok a ∧ f a = .error e := by
  cases x with
  | error e => simp
  | ok a => simp

theorem mapM_ok_iff {α β : Type} (f : α → Py β) (l : List α) (r : List β) :
    l.mapM f = .ok r ↔ List.Forall₂ (fun a b => f a = .ok b) l r := by
  induction l generalizing r with
  | nil =>
    simp only [List.mapM_nil, py_pure, Except.ok.injEq]
    constructor
    · rintro rfl; exact .nil
    · intro h; cases h; rfl
  | cons a l ih =>
    simp only [List.mapM_cons, py_bind_eq_ok]
    constructor
    · rintro ⟨b, hb, bs, hbs, h⟩
      simp only [py_pure, Except.ok.injEq] at h
      subst h
      exact .cons hb ((ih _).1 hbs)
    · intro h
      cases h with
      | cons hb hbs => exact ⟨_, hb, _, (ih _).2 hbs, rfl⟩

theorem mapM_ok_of_forall {α β : Type} (f : α → Py β) (g : α → β) (l : List α)
    (h : ∀ a ∈ l, f a = .ok (g a)) : l.mapM f = .ok (l.map g) := by
  induction l with
  | nil => rfl
  | cons a l ih =>
    rw [List.mapM_cons, h a (by simp), ih (fun b hb => h b (by simp [hb]))]
    rfl

theorem mapM_error_of_mem {α β : Type} (f : α → Py β) (l : List α) (a : α) (ha : a ∈ l) (e : PyErr)
    (h : f a = .error e) : ∃ e', l.mapM f = .error e' := by
  cases hm : l.mapM f with
  | error e' => exact ⟨e', rfl⟩
  | ok r =>
    exfalso
    rw [mapM_ok_iff] at hm
    induction hm with
    | nil => simp at ha
    | cons hb _ ih =>
      rcases List.mem_cons.1 ha with rfl | ha
      · rw [h] at hb; cases hb
      · exact ih ha

/-- if every failure of `f` is the same error and some element fails, `mapM` fails with that error. -/
theorem mapM_error_eq {α β : Type} (f : α → Py β) (l : List α) (e : PyErr)
    (hall : ∀ a ∈ l, ∀ e', f a = .error e' → e' = e) (hex : ∃ a ∈ l, f a = .error e) :
    l.mapM f = .error e := by
  induction l with
  | nil => simp at hex
  | cons a l ih =>
    rw [List.mapM_cons]
    cases hfa : f a with
    | error e' => rw [hall a (by simp) e' hfa]; rfl
    | ok b =>
      have : l.mapM f = .error e := by
        apply ih (fun a ha => hall a (by simp [ha]))
        obtain ⟨a', ha', h⟩ := hex
        rcases List.mem_cons.1 ha' with rfl | ha'
        · rw [hfa] at h; cases h
        · exact ⟨a', ha', h⟩
      simp [this]

/-! ## lists related element by element -/

theorem forall₂_of_forall_exists {α β : Type} (R : α → β → Prop) (l : List α) (h : ∀ a ∈ l, ∃ b, R a b) :
    ∃ bs, List.Forall₂ R l bs := by
  induction l with
  | nil => exact ⟨[], .nil⟩
  | cons a l ih =>
    obtain ⟨b, hb⟩ := h a (by simp)
    obtain ⟨bs, hbs⟩ := ih (fun a ha => h a (by simp [ha]))
    exact ⟨b :: bs, .cons hb hbs⟩

theorem forall₂_map_eq {α β γ : Type} {R : α → β → Prop} {f : α → γ} {g : β → γ} {l : List α} {l' : List β}
    (h : List.Forall₂ R l l') (hR : ∀ a b, R a b → g b = f a) : l'.map g = l.map f := by
  induction h with
  | nil => rfl
  | cons h _ ih => rw [List.map_cons, List.map_cons, hR _ _ h, ih]

theorem forall₂_mem_left {α β : Type} {R : α → β → Prop} {l : List α} {l' : List β}
    (h : List.Forall₂ R l l') : ∀ a ∈ l, ∃ b ∈ l', R a b := by
  induction h with
  | nil => simp
  | cons h _ ih =>
    intro x hx
    rcases List.mem_cons.1 hx with rfl | hx
    · exact ⟨_, by simp, h⟩
    · obtain ⟨y, hy, hr⟩ := ih x hx
      exact ⟨y, by simp [hy], hr⟩

theorem forall₂_mem_right {α β : Type} {R : α → β → Prop} {l : List α} {l' : List β}
    (h : List.Forall₂ R l l') : ∀ b ∈ l', ∃ a ∈ l, R a b := by
  induction h with
  | nil => simp
  | cons h _ ih =>
    intro x hx
    rcases List.mem_cons.1 hx with rfl | hx
    · exact ⟨_, by simp, h⟩
    · obtain ⟨y, hy, hr⟩ := ih x hx
      exact ⟨y, by simp [hy], hr⟩

/-! ## Dict -/

namespace Dict
variable {κ ν : Type} [DecidableEq κ]

@[simp] theorem get?_nil (k : κ) : get? ([] : Dict κ ν) k = none := rfl

theorem get?_cons (p : κ × ν) (d : Dict κ ν) (k : κ) :
    get? (p :: d) k = if p.1 = k then some p.2 else get? d k := by
  cases p; rfl

theorem get?_eq_none_iff (d : Dict κ ν) (k : κ) : get? d k = none ↔ k ∉ keys d := by
  induction d with
  | nil => simp [keys]
  | cons p d ih =>
    rw [get?_cons]
    by_cases h : p.1 = k
    · simp [h, keys]
    · simp only [h, if_false, ih, keys, List.map_cons, List.mem_cons, not_or]
      exact ⟨fun h' => ⟨fun e => h e.symm, h'⟩, fun h' => h'.2⟩

theorem get?_isSome_iff (d : Dict κ ν) (k : κ) : (∃ v, get? d k = some v) ↔ k ∈ keys d := by
  have := get?_eq_none_iff d k
  cases h : get? d k with
  | none => simp [this.1 h]
  | some v => simp only [Option.some.injEq, exists_eq', true_iff]; by_contra hc; rw [this.2 hc] at h; cases h

theorem mem_of_get? {d : Dict κ ν} {k : κ} {v : ν} (h : get? d k = some v) : (k, v) ∈ d := by
  induction d with
  | nil => simp at h
  | cons p d ih =>
    rw [get?_cons] at h
    by_cases hk : p.1 = k
    · simp only [hk, if_true, Option.some.injEq] at h
      obtain ⟨k₀, v₀⟩ := p
      simp_all
    · simp only [hk, if_false] at h
      exact List.mem_cons_of_mem _ (ih h)

theorem get?_of_mem_nodup {d : Dict κ ν} (hnd : (keys d).Nodup) {k : κ} {v : ν} (h : (k, v) ∈ d) :
    get? d k = some v := by
  induction d with
  | nil => simp at h
  | cons p d ih =>
    rw [get?_cons]
    simp only [keys, List.map_cons, List.nodup_cons] at hnd
    rcases List.mem_cons.1 h with rfl | h
    · simp
    · have : p.1 ≠ k := by
        intro e; apply hnd.1; rw [e]; exact List.mem_map_of_mem (f := Prod.fst) h
      simp only [this, if_false]
      exact ih hnd.2 h

theorem get?_set (d : Dict κ ν) (k k' : κ) (v : ν) :
    get? (set d k v) k' = if k = k' then some v else get? d k' := by
  induction d with
  | nil => simp [set, get?_cons]
  | cons p d ih =>
    obtain ⟨k₀, v₀⟩ := p
    simp only [set]
    by_cases h : k₀ = k
    · subst h
      simp only [if_true, get?_cons]
      split <;> rfl
    · simp only [h, if_false, get?_cons, ih]
      by_cases h' : k₀ = k'
      · subst h'; simp [Ne.symm h]
      · simp [h']

theorem keys_set (d : Dict κ ν) (k : κ) (v : ν) :
    keys (set d k v) = if k ∈ keys d then keys d else keys d ++ [k] := by
  induction d with
  | nil => simp [set, keys]
  | cons p d ih =>
    obtain ⟨k₀, v₀⟩ := p
    simp only [set]
    by_cases h : k₀ = k
    · subst h; simp [keys]
    · simp only [h, if_false]
      have : keys ((k₀, v₀) :: set d k v) = k₀ :: keys (set d k v) := rfl
      rw [this, ih]
      have h2 : keys ((k₀, v₀) :: d) = k₀ :: keys d := rfl
      rw [h2]
      by_cases hm : k ∈ keys d
      · simp [hm]
      · simp [hm, Ne.symm h]

theorem nodup_keys_set (d : Dict κ ν) (k : κ) (v : ν) (h : (keys d).Nodup) : (keys (set d k v)).Nodup := by
  rw [keys_set]
  split
  · exact h
  · rename_i hk
    rw [List.nodup_append]
    refine ⟨h, by simp, ?_⟩
    intro a ha b hb
    simp only [List.mem_singleton] at hb
    subst hb
    rintro rfl
    exact hk ha

theorem set_of_not_mem (d : Dict κ ν) (k : κ) (v : ν) (h : k ∉ keys d) : set d k v = d ++ [(k, v)] := by
  induction d with
  | nil => rfl
  | cons p d ih =>
    obtain ⟨k₀, v₀⟩ := p
    simp only [keys, List.map_cons, List.mem_cons, not_or] at h
    simp only [set, Ne.symm h.1, if_false, List.cons_append]
    rw [ih h.2]

theorem ofPairs_aux (l : List (κ × ν)) (d : Dict κ ν) (h : (keys d ++ l.map Prod.fst).Nodup) :
    l.foldl (fun d p => set d p.1 p.2) d = d ++ l := by
  induction l generalizing d with
  | nil => simp
  | cons p l ih =>
    simp only [List.foldl_cons]
    have hp : p.1 ∉ keys d := by
      rw [List.nodup_append] at h
      intro hm
      exact h.2.2 _ hm _ (by simp) rfl
    rw [set_of_not_mem _ _ _ hp, ih]
    · simp
    · simpa [keys] using h

/-- without repeated keys `dict(pairs)` is the list of pairs. -/
theorem ofPairs_eq_self (l : List (κ × ν)) (h : (l.map Prod.fst).Nodup) : ofPairs l = l := by
  have := ofPairs_aux l [] (by simpa [keys] using h)
  simpa [ofPairs] using this

theorem foldl_set_get? (l : List (κ × ν)) (d : Dict κ ν) (k : κ) :
    get? (l.foldl (fun d p => set d p.1 p.2) d) k =
      match (l.reverse.find? (fun p => p.1 = k)) with
      | some p => some p.2
      | none => get? d k := by
  induction l generalizing d with
  | nil => simp
  | cons p l ih =>
    simp only [List.foldl_cons, ih, List.reverse_cons, List.find?_append]
    cases h : l.reverse.find? (fun p => p.1 = k) with
    | some q => simp
    | none =>
      simp only [Option.none_or, List.find?_cons, List.find?_nil, get?_set]
      by_cases hk : p.1 = k <;> simp [hk]

theorem mem_keys_foldl_set (l : List (κ × ν)) (d : Dict κ ν) (k : κ) :
    k ∈ keys (l.foldl (fun d p => set d p.1 p.2) d) ↔ k ∈ keys d ∨ k ∈ l.map Prod.fst := by
  induction l generalizing d with
  | nil => simp
  | cons p l ih =>
    simp only [List.foldl_cons, ih, List.map_cons, List.mem_cons]
    rw [keys_set]
    split
    · rename_i h
      constructor
      · rintro (h | h)
        · exact .inl h
        · exact .inr (.inr h)
      · rintro (h | rfl | h)
        · exact .inl h
        · exact .inl ‹_›
        · exact .inr h
    · simp only [List.mem_append, List.mem_singleton]
      tauto

theorem mem_keys_ofPairs (l : List (κ × ν)) (k : κ) : k ∈ keys (ofPairs l) ↔ k ∈ l.map Prod.fst := by
  have := mem_keys_foldl_set l [] k
  simpa [ofPairs, keys] using this

theorem nodup_keys_foldl_set (l : List (κ × ν)) (d : Dict κ ν) (h : (keys d).Nodup) :
    (keys (l.foldl (fun d p => set d p.1 p.2) d)).Nodup := by
  induction l generalizing d with
  | nil => exact h
  | cons p l ih => exact ih _ (nodup_keys_set _ _ _ h)

theorem nodup_keys_ofPairs (l : List (κ × ν)) : (keys (ofPairs l)).Nodup :=
  nodup_keys_foldl_set l [] (by simp [keys])

theorem get_eq_ok_iff {d : Dict κ ν} {k : κ} {v : ν} : get d k = .ok v ↔ get? d k = some v := by
  unfold get; cases get? d k <;> simp

theorem get_eq_error_iff {d : Dict κ ν} {k : κ} {e : PyErr} :
    get d k = .error e ↔ k ∉ keys d ∧ e = .keyError := by
  rw [← get?_eq_none_iff]
  unfold get; cases get? d k <;> simp [eq_comm]

end Dict

/-! ## `pyMax`, `pyMin` -/

section
variable {α K : Type} [LinearOrder K] (f : α → K)

theorem pyMaxFrom_mem (b : α) (l : List α) : pyMaxFrom f b l = b ∨ pyMaxFrom f b l ∈ l := by
  induction l generalizing b with
  | nil => left; rfl
  | cons x l ih =>
    simp only [pyMaxFrom]
    rcases ih (if f b < f x then x else b) with h | h
    · rw [h]; split
      · right; simp
      · left; rfl
    · right; simp [h]

theorem pyMaxFrom_ge_init (b : α) (l : List α) : f b ≤ f (pyMaxFrom f b l) := by
  induction l generalizing b with
  | nil => exact le_refl _
  | cons x l ih =>
    simp only [pyMaxFrom]
    refine le_trans ?_ (ih _)
    split
    · exact le_of_lt ‹_›
    · exact le_refl _

theorem pyMaxFrom_ge (b : α) (l : List α) : ∀ x ∈ l, f x ≤ f (pyMaxFrom f b l) := by
  induction l generalizing b with
  | nil => simp
  | cons y l ih =>
    intro x hx
    simp only [pyMaxFrom]
    rcases List.mem_cons.1 hx with rfl | hx
    · refine le_trans ?_ (pyMaxFrom_ge_init f _ l)
      split
      · exact le_refl _
      · exact le_of_not_gt ‹_›
    · exact ih _ x hx

/-- the result of `pyMaxFrom` splits `b :: l` at the *first* maximum. -/
theorem pyMaxFrom_split (b : α) (l : List α) :
    ∃ pre post, b :: l = pre ++ pyMaxFrom f b l :: post ∧ ∀ x ∈ pre, f x < f (pyMaxFrom f b l) := by
  induction l generalizing b with
  | nil => exact ⟨[], [], rfl, by simp⟩
  | cons y l ih =>
    simp only [pyMaxFrom]
    by_cases h : f b < f y
    · simp only [h, if_true]
      obtain ⟨pre, post, he, hp⟩ := ih y
      refine ⟨b :: pre, post, by rw [he]; rfl, ?_⟩
      intro x hx
      rcases List.mem_cons.1 hx with rfl | hx
      · exact lt_of_lt_of_le h (pyMaxFrom_ge_init f y l)
      · exact hp x hx
    · simp only [h, if_false]
      obtain ⟨pre, post, he, hp⟩ := ih b
      cases pre with
      | nil =>
        simp only [List.nil_append, List.cons.injEq] at he
        refine ⟨[], y :: l, ?_, by simp⟩
        rw [← he.1]; rfl
      | cons b' pre =>
        simp only [List.cons_append, List.cons.injEq] at he
        obtain ⟨rfl, he⟩ := he
        refine ⟨b :: y :: pre, post, by
          simp only [List.cons_append, List.cons.injEq, true_and]; exact he, ?_⟩
        intro x hx
        simp only [List.mem_cons] at hx
        rcases hx with rfl | rfl | hx
        · exact hp _ (by simp)
        · exact lt_of_le_of_lt (not_lt.1 h) (hp b (by simp))
        · exact hp x (by simp [hx])

end

/-- Specification of `max(xs, key=f)`: a member with the largest key, the first such in the list. -/
theorem pyMax_eq_ok {α K : Type} [LinearOrder K] (f : α → K) (l : List α) (m : α) (h : pyMax f l = .ok m) :
    m ∈ l ∧ (∀ x ∈ l, f x ≤ f m) ∧ ∃ pre post, l = pre ++ m :: post ∧ ∀ x ∈ pre, f x < f m := by
  cases l with
  | nil => simp [pyMax] at h
  | cons b l =>
    simp only [pyMax, Except.ok.injEq] at h
    subst h
    refine ⟨?_, ?_, pyMaxFrom_split f b l⟩
    · rcases pyMaxFrom_mem f b l with h | h
      · rw [h]; simp
      · simp [h]
    · intro x hx
      rcases List.mem_cons.1 hx with rfl | hx
      · exact pyMaxFrom_ge_init f _ l
      · exact pyMaxFrom_ge f b l x hx

theorem pyMax_ok_of_ne_nil {α K : Type} [LinearOrder K] (f : α → K) (l : List α) (h : l ≠ []) :
    ∃ m, pyMax f l = .ok m := by
  cases l with
  | nil => exact absurd rfl h
  | cons b l => exact ⟨_, rfl⟩

/-- a first maximum determines the result of `pyMax`. -/
theorem pyMax_eq_of_split {α K : Type} [LinearOrder K] (f : α → K) (pre post : List α) (m : α)
    (hpre : ∀ x ∈ pre, f x < f m) (hpost : ∀ x ∈ post, f x ≤ f m) :
    pyMax f (pre ++ m :: post) = .ok m := by
  have aux : ∀ (b : α) (l : List α), (∀ x ∈ l, f x ≤ f b) → pyMaxFrom f b l = b := by
    intro b l
    induction l with
    | nil => intro _; rfl
    | cons y l ih =>
      intro h
      simp only [pyMaxFrom, not_lt.2 (h y (by simp)), if_false]
      exact ih (fun x hx => h x (by simp [hx]))
  have aux2 : ∀ (b : α) (pre : List α), f b < f m → (∀ x ∈ pre, f x < f m) →
      pyMaxFrom f b (pre ++ m :: post) = m := by
    intro b pre
    induction pre generalizing b with
    | nil => intro hb _; simp only [List.nil_append, pyMaxFrom, hb, if_true]; exact aux m post hpost
    | cons y pre ih =>
      intro hb h
      simp only [List.cons_append, pyMaxFrom]
      split
      · exact ih y (h y (by simp)) (fun x hx => h x (by simp [hx]))
      · exact ih b hb (fun x hx => h x (by simp [hx]))
  cases pre with
  | nil => simp only [List.nil_append, pyMax]; rw [aux m post hpost]
  | cons b pre =>
    simp only [List.cons_append, pyMax]
    rw [aux2 b pre (hpre b (by simp)) (fun x hx => hpre x (by simp [hx]))]

section
variable {K : Type} [LinearOrder K]

theorem foldl_min_le_init (x : K) (l : List K) : l.foldl min x ≤ x := by
  induction l generalizing x with
  | nil => exact le_refl _
  | cons y l ih => exact le_trans (ih _) (min_le_left _ _)

theorem foldl_min_le (x : K) (l : List K) : ∀ y ∈ l, l.foldl min x ≤ y := by
  induction l generalizing x with
  | nil => simp
  | cons z l ih =>
    intro y hy
    rcases List.mem_cons.1 hy with rfl | hy
    · exact le_trans (foldl_min_le_init (min x y) l) (min_le_right _ _)
    · exact ih _ y hy

theorem foldl_min_mem (x : K) (l : List K) : l.foldl min x = x ∨ l.foldl min x ∈ l := by
  induction l generalizing x with
  | nil => left; rfl
  | cons z l ih =>
    simp only [List.foldl_cons]
    rcases ih (min x z) with h | h
    · rw [h]
      rcases min_choice x z with h' | h' <;> simp [h']
    · right; simp [h]

/-- Specification of `min(xs)`: the smallest member. -/
theorem pyMin_eq_ok_iff (l : List K) (m : K) : pyMin l = .ok m ↔ m ∈ l ∧ ∀ x ∈ l, m ≤ x := by
  cases l with
  | nil => simp [pyMin]
  | cons b l =>
    simp only [pyMin, Except.ok.injEq]
    have hmem : l.foldl min b ∈ b :: l := by
      rcases foldl_min_mem b l with h | h
      · rw [h]; simp
      · simp [h]
    have hle : ∀ x ∈ b :: l, l.foldl min b ≤ x := by
      intro x hx
      rcases List.mem_cons.1 hx with rfl | hx
      · exact foldl_min_le_init _ _
      · exact foldl_min_le _ _ x hx
    constructor
    · rintro rfl; exact ⟨hmem, hle⟩
    · rintro ⟨h1, h2⟩
      exact le_antisymm (hle _ h1) (h2 _ hmem)

theorem pyMin_eq_error_iff (l : List K) (e : PyErr) : pyMin l = .error e ↔ l = [] ∧ e = .valueError := by
  cases l with
  | nil => simp [pyMin, eq_comm]
  | cons b l => simp [pyMin]

end

/-! ## columns -/

theorem column_eq_ok_iff {α : Type} (X : List (List α)) (i : Nat) (c : List α) :
    column X i = .ok c ↔ List.Forall₂ (fun r v => r[i]? = some v) X c := by
  unfold column
  rw [mapM_ok_iff]
  constructor <;> intro h <;> refine h.imp ?_ <;> intro r v hv
  · cases hr : r[i]? with
    | none => rw [hr] at hv; cases hv
    | some w => rw [hr] at hv; cases hv; rfl
  · rw [hv]

theorem forall₂_comp {α β γ : Type} {P : α → β → Prop} {Q : β → γ → Prop} {S : α → γ → Prop} {l : List α} {m : List β} {k : List γ}
    (h1 : List.Forall₂ P l m) (h2 : List.Forall₂ Q m k) (h : ∀ a b c, P a b → Q b c → S a c) : List.Forall₂ S l k := by
  induction h1 generalizing k with
  | nil => cases h2; exact .nil
  | cons hp _ ih =>
    cases h2 with
    | cons hq h2 => exact .cons (h _ _ _ hp hq) (ih h2)

end Teacher
