import Verif.Model.Artificial
import Verif.Props.GPFitness

/-! # C129: artificial features -/

set_option linter.unusedSectionVars false

namespace Teacher

variable {R K : Type} [Field K] [LinearOrder K] [IsStrictOrderedRing K]

theorem toString_inj_nat {a b : Nat} (h : toString a = toString b) : a = b := by
  have h : a.repr = b.repr := h
  have := congrArg (fun s : String => Nat.ofDigitChars 10 s.toList 0) h
  simpa using this

theorem artNames_nodup (p : String) (n : Nat) : ((List.range n).map (fun i => p ++ toString i)).Nodup := by
  refine List.Nodup.map_on ?_ List.nodup_range
  intro a _ b _ h
  exact toString_inj_nat (by simpa using h)

theorem artNames_ne (a b : Nat) : "artificial_disc_" ++ toString a ≠ "artificial_cont_" ++ toString b := by
  intro h
  have := congrArg (fun s : String => s.toList[11]?) h
  simp at this

theorem discLoop_spec (rng : ArtRng R K) (size : Nat) (names : List String) (s : ArtResult K) (r : R) :
    ∃ data, data.length = names.length ∧ (∀ col ∈ data, ∃ r, col = (rng.disc size r).1) ∧
      (discLoop rng size names s r).1.columns = s.columns ++ names ∧
      (discLoop rng size names s r).1.discrete = s.discrete ++ names ∧
      (discLoop rng size names s r).1.continuous = s.continuous ∧
      (discLoop rng size names s r).1.data = s.data ++ data ∧
      (discLoop rng size names s r).1.newDiscrete = s.newDiscrete ++ names ∧
      (discLoop rng size names s r).1.newContinuous = s.newContinuous ∧
      ∀ c, Dict.get? (discLoop rng size names s r).1.types c = if c ∈ names then some .integer else Dict.get? s.types c := by
  induction names generalizing s r with
  | nil => exact ⟨[], rfl, by simp, by simp [discLoop], by simp [discLoop], rfl, by simp [discLoop], by simp [discLoop], rfl, by simp [discLoop]⟩
  | cons name names ih =>
    obtain ⟨data, h1, h2, h3, h4, h5, h6, h7, h8, h9⟩ := ih
      ⟨s.columns ++ [name], Dict.set s.types name .integer, s.discrete ++ [name], s.continuous, s.data ++ [(rng.disc size r).1],
        s.newDiscrete ++ [name], s.newContinuous⟩ (rng.disc size r).2
    refine ⟨(rng.disc size r).1 :: data, by simp [h1], ?_, ?_, ?_, h5, ?_, ?_, h8, ?_⟩
    · intro col hc
      rcases List.mem_cons.1 hc with rfl | hc
      · exact ⟨r, rfl⟩
      · exact h2 col hc
    · rw [discLoop, h3]; simp
    · rw [discLoop, h4]; simp
    · rw [discLoop, h6]; simp
    · rw [discLoop, h7]; simp
    · intro c
      rw [discLoop, h9]
      simp only [Dict.get?_set, List.mem_cons]
      by_cases hc : c ∈ names
      · simp [hc]
      · by_cases hn : c = name
        · subst hn; simp [hc]
        · have hn' : name ≠ c := fun h => hn h.symm
          simp [hc, hn, hn']

theorem contLoop_spec (rng : ArtRng R K) (size : Nat) (names : List String) (s : ArtResult K) (r : R) :
    ∃ data, data.length = names.length ∧ (∀ col ∈ data, ∃ r, col = (rng.cont size r).1) ∧
      (contLoop rng size names s r).1.columns = s.columns ++ names ∧
      (contLoop rng size names s r).1.discrete = s.discrete ∧
      (contLoop rng size names s r).1.continuous = s.continuous ++ names ∧
      (contLoop rng size names s r).1.data = s.data ++ data ∧
      (contLoop rng size names s r).1.newDiscrete = s.newDiscrete ∧
      (contLoop rng size names s r).1.newContinuous = s.newContinuous ++ names ∧
      ∀ c, Dict.get? (contLoop rng size names s r).1.types c = if c ∈ names then some .double else Dict.get? s.types c := by
  induction names generalizing s r with
  | nil => exact ⟨[], rfl, by simp, by simp [contLoop], rfl, by simp [contLoop], by simp [contLoop], rfl, by simp [contLoop], by simp [contLoop]⟩
  | cons name names ih =>
    obtain ⟨data, h1, h2, h3, h4, h5, h6, h7, h8, h9⟩ := ih
      ⟨s.columns ++ [name], Dict.set s.types name .double, s.discrete, s.continuous ++ [name], s.data ++ [(rng.cont size r).1],
        s.newDiscrete, s.newContinuous ++ [name]⟩ (rng.cont size r).2
    refine ⟨(rng.cont size r).1 :: data, by simp [h1], ?_, ?_, h4, ?_, ?_, h7, ?_, ?_⟩
    · intro col hc
      rcases List.mem_cons.1 hc with rfl | hc
      · exact ⟨r, rfl⟩
      · exact h2 col hc
    · rw [contLoop, h3]; simp
    · rw [contLoop, h5]; simp
    · rw [contLoop, h6]; simp
    · rw [contLoop, h8]; simp
    · intro c
      rw [contLoop, h9]
      simp only [Dict.get?_set, List.mem_cons]
      by_cases hc : c ∈ names
      · simp [hc]
      · by_cases hn : c = name
        · subst hn; simp [hc]
        · have hn' : name ≠ c := fun h => hn h.symm
          simp [hc, hn, hn']

/-- the steps of the call. -/
theorem generateArtificial_eq (rng : ArtRng R K) (rnd : K → Int) (size : Nat) (className : String) (columns : List String)
    (types : Dict String DType) (discrete continuous : List String) (ratio : K) (r : R) (hc : className ∈ discrete) :
    ∃ (s : ArtResult K) (r' : R) (newD newC : List String) (dd dc : List (List K)),
      generateArtificial rng rnd size className columns types discrete continuous ratio r =
        (if s.data = [] then .error .typeError else .ok (s, r')) ∧
      newD.length = (rnd (ratio * ((discrete.length - 1 : Nat) : K))).toNat ∧
      newC.length = (rnd (ratio * ((columns.length : K) - 1)) - rnd (ratio * ((discrete.length - 1 : Nat) : K))).toNat ∧
      (newD ++ newC).Nodup ∧ s.columns = columns ++ newD ++ newC ∧ s.discrete = discrete ++ newD ∧ s.continuous = continuous ++ newC ∧
      s.newDiscrete = newD ∧ s.newContinuous = newC ∧
      (∀ c ∈ newD, Dict.get? s.types c = some .integer) ∧ (∀ c ∈ newC, Dict.get? s.types c = some .double) ∧
      (∀ c, c ∉ newD → c ∉ newC → Dict.get? s.types c = Dict.get? types c) ∧
      s.data = dd ++ dc ∧ dd.length = newD.length ∧ dc.length = newC.length ∧
      (∀ col ∈ dd, ∃ r, col = (rng.disc size r).1) ∧ ∀ col ∈ dc, ∃ r, col = (rng.cont size r).1 := by
  set dnc := discrete.erase className with hdnc
  have hlen : dnc.length = discrete.length - 1 := List.length_erase_of_mem hc
  set D := (List.range (numDisc rnd ratio dnc)).map (fun i => "artificial_disc_" ++ toString i) with hD
  set C := (List.range (numCont rnd ratio columns dnc)).map (fun i => "artificial_cont_" ++ toString i) with hC
  set s0 : ArtResult K := ⟨columns, types, discrete, continuous, [], [], []⟩ with hs0
  obtain ⟨dd, a1, a2, a3, a4, a5, a6, a7, a8, a9⟩ := discLoop_spec rng size D s0 r
  set q := discLoop rng size D s0 r with hq
  obtain ⟨dc, b1, b2, b3, b4, b5, b6, b7, b8, b9⟩ := contLoop_spec rng size C q.1 q.2
  set w := contLoop rng size C q.1 q.2 with hw
  have hdisj : ∀ c ∈ D, c ∉ C := by
    intro c h1 h2
    obtain ⟨i, -, rfl⟩ := List.mem_map.1 h1
    obtain ⟨j, -, h⟩ := List.mem_map.1 h2
    exact artNames_ne i j h.symm
  refine ⟨w.1, w.2, D, C, dd, dc, ?_, ?_, ?_, ?_, ?_, ?_, ?_, ?_, ?_, ?_, ?_, ?_, ?_, a1, b1, a2, b2⟩
  · simp only [generateArtificial, pyRemove, if_pos hc, py_bind_ok]
    rfl
  · simp only [hD, List.length_map, List.length_range, numDisc, hlen]
  · simp only [hC, List.length_map, List.length_range, numCont, hlen]
    omega
  · rw [List.nodup_append]
    refine ⟨artNames_nodup _ _, artNames_nodup _ _, ?_⟩
    intro a ha b hb e
    exact hdisj a ha (e ▸ hb)
  · rw [b3, a3]
  · rw [b4, a4]
  · rw [b5, a5]
  · rw [b7, a7]; rfl
  · rw [b8, a8]; rfl
  · intro c hcD
    rw [b9, if_neg (hdisj c hcD), a9, if_pos hcD]
  · intro c hcC
    rw [b9, if_pos hcC]
  · intro c h1 h2
    rw [b9, if_neg h2, a9, if_neg h1]
  · rw [b6, a6]; rfl

/-- **C129** (what holds): when the class is discrete and a feature or more is to be added, `generate_artificial_features` adds
`round(ratio · #discrete features)` new discrete names and the rest of `round(ratio · #features)` continuous ones: different names, appended
to `columns`, `discrete` and `continuous`, with their types, and returned in the second and third values. Missing: the data
(`C129_rows_false`) and names already in use (`C129_twice_false`). -/
theorem C129_features_partial (rng : ArtRng R K) (rnd : K → Int) (size : Nat) (className : String) (columns : List String)
    (types : Dict String DType) (discrete continuous : List String) (ratio : K) (r : R) (hc : className ∈ discrete)
    (hpos : 0 < rnd (ratio * ((discrete.length - 1 : Nat) : K)) ∨
      rnd (ratio * ((discrete.length - 1 : Nat) : K)) < rnd (ratio * ((columns.length : K) - 1))) :
    ∃ (s : ArtResult K) (r' : R), generateArtificial rng rnd size className columns types discrete continuous ratio r = .ok (s, r') ∧
      s.newDiscrete.length = (rnd (ratio * ((discrete.length - 1 : Nat) : K))).toNat ∧
      s.newContinuous.length = (rnd (ratio * ((columns.length : K) - 1)) - rnd (ratio * ((discrete.length - 1 : Nat) : K))).toNat ∧
      (s.newDiscrete ++ s.newContinuous).Nodup ∧ s.columns = columns ++ s.newDiscrete ++ s.newContinuous ∧
      s.discrete = discrete ++ s.newDiscrete ∧ s.continuous = continuous ++ s.newContinuous ∧
      (∀ c ∈ s.newDiscrete, Dict.get? s.types c = some .integer) ∧ (∀ c ∈ s.newContinuous, Dict.get? s.types c = some .double) ∧
      ∀ c, c ∉ s.newDiscrete → c ∉ s.newContinuous → Dict.get? s.types c = Dict.get? types c := by
  obtain ⟨s, r', newD, newC, dd, dc, h1, h2, h3, h4, h5, h6, h7, h8, h9, h10, h11, h12, h13, h14, h15, -⟩ :=
    generateArtificial_eq rng rnd size className columns types discrete continuous ratio r hc
  subst h8 h9
  have hne : s.data ≠ [] := by
    intro h
    have := congrArg List.length h13
    rw [h, List.length_append, h14, h15, h2, h3] at this
    simp only [List.length_nil] at this
    omega
  rw [if_neg hne] at h1
  exact ⟨s, r', h1, h2, h3, h4, h5, h6, h7, h10, h11, h12⟩

/-- C129 is false of the data: whatever the arguments, with `size` greater than 0 the rows can never be read — either the call raises
(`TypeError`, or `ValueError` if the class is not discrete) or reading the first returned value raises `TypeError` (`map(None, …)` is of
Python 2). -/
theorem C129_rows_false (rng : ArtRng R K) (hrng : ∀ n r, (rng.disc n r).1.length = n ∧ (rng.cont n r).1.length = n) (rnd : K → Int)
    (size : Nat) (hsize : 0 < size) (className : String) (columns : List String) (types : Dict String DType)
    (discrete continuous : List String) (ratio : K) (r : R) :
    (∃ e, generateArtificial rng rnd size className columns types discrete continuous ratio r = .error e) ∨
      ∃ s r', generateArtificial rng rnd size className columns types discrete continuous ratio r = .ok (s, r') ∧
        s.rows = .error .typeError := by
  by_cases hc : className ∈ discrete
  · obtain ⟨s, r', newD, newC, dd, dc, h1, -, -, -, -, -, -, -, -, -, -, -, h13, -, -, h16, h17⟩ :=
      generateArtificial_eq rng rnd size className columns types discrete continuous ratio r hc
    by_cases hd : s.data = []
    · rw [if_pos hd] at h1; exact .inl ⟨_, h1⟩
    · rw [if_neg hd] at h1
      refine .inr ⟨s, r', h1, ?_⟩
      unfold ArtResult.rows
      rw [if_neg]
      rw [h13]
      intro h
      rcases List.mem_append.1 h with h | h
      · obtain ⟨r0, e⟩ := h16 _ h
        have := (hrng size r0).1
        rw [← e] at this
        simp at this
        omega
      · obtain ⟨r0, e⟩ := h17 _ h
        have := (hrng size r0).2
        rw [← e] at this
        simp at this
        omega
  · exact .inl ⟨.valueError, by simp only [generateArtificial, pyRemove, if_neg hc]; rfl⟩

/-- and when no feature is to be added the call itself raises `TypeError`. -/
theorem C129_none_false (rng : ArtRng R K) (rnd : K → Int) (size : Nat) (className : String) (columns : List String)
    (types : Dict String DType) (discrete continuous : List String) (ratio : K) (r : R) (hc : className ∈ discrete)
    (h0 : rnd (ratio * ((discrete.length - 1 : Nat) : K)) ≤ 0)
    (h1 : rnd (ratio * ((columns.length : K) - 1)) ≤ rnd (ratio * ((discrete.length - 1 : Nat) : K))) :
    generateArtificial rng rnd size className columns types discrete continuous ratio r = .error .typeError := by
  obtain ⟨s, r', newD, newC, dd, dc, g1, g2, g3, -, -, -, -, -, -, -, -, -, h13, h14, h15, -, -⟩ :=
    generateArtificial_eq rng rnd size className columns types discrete continuous ratio r hc
  rw [if_pos] at g1
  · exact g1
  · rw [h13, ← List.length_eq_zero_iff, List.length_append, h14, h15, g2, g3]
    omega

/-- draws for the examples. -/
def artRng : ArtRng Nat ℚ := ⟨fun n r => (List.replicate n 0, r + 1), fun n r => (List.replicate n (1 / 2), r + 1)⟩

example : generateArtificial artRng Int.floor 2 "cls" ["cls", "a", "b", "c", "d"] [("cls", .string)] ["a", "b", "cls"] ["c", "d"] (1 / 2) 0
    = .ok (⟨["cls", "a", "b", "c", "d", "artificial_disc_0", "artificial_cont_0"],
        [("cls", .string), ("artificial_disc_0", .integer), ("artificial_cont_0", .double)], ["a", "b", "cls", "artificial_disc_0"],
        ["c", "d", "artificial_cont_0"], [[0, 0], [1 / 2, 1 / 2]], ["artificial_disc_0"], ["artificial_cont_0"]⟩, 2) := by decide +kernel

/-- C129 is false on a second call with the same lists: the new names are those of the first call, and `columns` has them twice. -/
theorem C129_twice_false : ∃ (columns : List String) (types : Dict String DType) (discrete continuous : List String) (s1 s2 : ArtResult ℚ)
    (r1 r2 : Nat), columns.Nodup ∧
      generateArtificial artRng Int.floor 2 "cls" columns types discrete continuous (1 / 2) 0 = .ok (s1, r1) ∧
      generateArtificial artRng Int.floor 2 "cls" s1.columns s1.types s1.discrete s1.continuous (1 / 2) r1 = .ok (s2, r2) ∧
      ¬ s2.columns.Nodup := by
  refine ⟨["cls", "a", "b"], [], ["a", "b", "cls"], [],
    ⟨["cls", "a", "b", "artificial_disc_0"], [("artificial_disc_0", .integer)], ["a", "b", "cls", "artificial_disc_0"], [], [[0, 0]],
      ["artificial_disc_0"], []⟩,
    ⟨["cls", "a", "b", "artificial_disc_0", "artificial_disc_0"], [("artificial_disc_0", .integer)],
      ["a", "b", "cls", "artificial_disc_0", "artificial_disc_0"], [], [[0, 0]], ["artificial_disc_0"], []⟩, 1, 2, ?_⟩
  decide +kernel

end Teacher
