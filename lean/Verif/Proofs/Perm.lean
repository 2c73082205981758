import Verif.Model.Perm

/-! Facts about the permutation generator, `nthperm` and `unpermutate`. -/

set_option linter.unusedSectionVars false

namespace GB

/-! ### picks -/

theorem picks_map {α β : Type} (f : α → β) (l : List α) :
    picks (l.map f) = (picks l).map fun p => (f p.1, p.2.map f) := by
  induction l with
  | nil => rfl
  | cons x xs ih => simp [picks, ih, Function.comp_def]

theorem picks_length {α : Type} (l : List α) : (picks l).length = l.length := by
  induction l with
  | nil => rfl
  | cons x xs ih => simp [picks, ih]

theorem picks_fst {α : Type} (l : List α) : (picks l).map Prod.fst = l := by
  induction l with
  | nil => rfl
  | cons x xs ih => simp [picks, Function.comp_def]; exact ih

theorem picks_perm {α : Type} {l : List α} {p : α × List α} (h : p ∈ picks l) :
    (p.1 :: p.2).Perm l := by
  induction l generalizing p with
  | nil => simp [picks] at h
  | cons x xs ih =>
    simp only [picks, List.mem_cons, List.mem_map] at h
    rcases h with rfl | ⟨q, hq, rfl⟩
    · exact .refl _
    · exact (List.Perm.swap _ _ _).trans ((ih hq).cons x)

theorem picks_sublist {α : Type} {l : List α} {p : α × List α} (h : p ∈ picks l) :
    p.2.Sublist l := by
  induction l generalizing p with
  | nil => simp [picks] at h
  | cons x xs ih =>
    simp only [picks, List.mem_cons, List.mem_map] at h
    rcases h with rfl | ⟨q, hq, rfl⟩
    · exact List.sublist_cons_self _ _
    · exact (ih hq).cons_cons x

theorem picks_snd_length {α : Type} {l : List α} {p : α × List α} (h : p ∈ picks l) :
    p.2.length + 1 = l.length := by
  have := (picks_perm h).length_eq
  simpa using this

theorem exists_pick {α : Type} {l : List α} {x : α} (h : x ∈ l) : ∃ r, (x, r) ∈ picks l := by
  have : x ∈ (picks l).map Prod.fst := by rw [picks_fst]; exact h
  obtain ⟨⟨a, r⟩, hp, rfl⟩ := List.mem_map.1 this
  exact ⟨r, hp⟩

/-! ### the permutation list -/

theorem permsLex_map {α β : Type} (f : α → β) (n : Nat) (l : List α) :
    permsLex n (l.map f) = (permsLex n l).map (List.map f) := by
  induction n generalizing l with
  | zero => rfl
  | succ n ih =>
    simp only [permsLex, picks_map, List.flatMap_map, List.map_flatMap, ih, List.map_map]
    rfl

theorem permutations_map {α β : Type} (f : α → β) (l : List α) :
    permutations (l.map f) = (permutations l).map (List.map f) := by
  simp [permutations, permsLex_map]

theorem sum_map_const' {α : Type} (f : α → Nat) (c : Nat) (l : List α) (h : ∀ x ∈ l, f x = c) :
    (l.map f).sum = l.length * c := by
  induction l with
  | nil => simp
  | cons x xs ih =>
    have h1 := h x (by simp)
    have h2 := ih (fun y hy => h y (by simp [hy]))
    simp [h1, h2, Nat.add_mul]; omega

theorem permsLex_length {α : Type} (n : Nat) (l : List α) (h : l.length = n) :
    (permsLex n l).length = factorial n := by
  induction n generalizing l with
  | zero => simp [permsLex, factorial]
  | succ n ih =>
    simp only [permsLex, List.length_flatMap, List.length_map]
    rw [sum_map_const' _ (factorial n)]
    · rw [picks_length, h, factorial]
    · intro p hp
      have := picks_snd_length hp
      exact ih p.2 (by omega)

theorem permutations_length {α : Type} (l : List α) :
    (permutations l).length = factorial l.length := permsLex_length _ _ rfl

theorem mem_permsLex {α : Type} (n : Nat) (l : List α) (h : l.length = n) (p : List α) :
    p ∈ permsLex n l ↔ p.Perm l := by
  induction n generalizing l p with
  | zero =>
    have : l = [] := List.eq_nil_of_length_eq_zero h
    subst this
    simp [permsLex, List.perm_nil]
  | succ n ih =>
    simp only [permsLex, List.mem_flatMap, List.mem_map]
    constructor
    · rintro ⟨q, hq, r, hr, rfl⟩
      have := picks_snd_length hq
      rw [ih q.2 (by omega)] at hr
      exact (hr.cons q.1).trans (picks_perm hq)
    · intro hp
      cases p with
      | nil => have := hp.length_eq; simp at this; omega
      | cons x r =>
        obtain ⟨s, hs⟩ := exists_pick (hp.subset (List.mem_cons_self ..))
        refine ⟨(x, s), hs, r, ?_, rfl⟩
        have hl := picks_snd_length hs
        rw [ih s (by simp at hl; omega)]
        exact (hp.trans (picks_perm hs).symm).cons_inv

theorem mem_permutations {α : Type} {l p : List α} : p ∈ permutations l ↔ p.Perm l :=
  mem_permsLex _ _ rfl _

theorem permsLex_sorted (n : Nat) (l : List Nat) (hl : l.Pairwise (· < ·)) :
    (permsLex n l).Pairwise (· < ·) := by
  induction n generalizing l with
  | zero => simp [permsLex]
  | succ n ih =>
    rw [permsLex, List.pairwise_flatMap]
    constructor
    · intro p hp
      rw [List.pairwise_map]
      have := ih p.2 (hl.sublist (picks_sublist hp))
      exact this.imp (fun h => by rw [List.cons_lt_cons_iff]; exact .inr ⟨rfl, h⟩)
    · have : ((picks l).map Prod.fst).Pairwise (· < ·) := by rw [picks_fst]; exact hl
      rw [List.pairwise_map] at this
      refine this.imp ?_
      intro a b hab x hx y hy
      obtain ⟨x', _, rfl⟩ := List.mem_map.1 hx
      obtain ⟨y', _, rfl⟩ := List.mem_map.1 hy
      rw [List.cons_lt_cons_iff]
      exact .inl hab

theorem permutations_range_sorted (k : Nat) : (permutations (List.range k)).Pairwise (· < ·) :=
  permsLex_sorted _ _ List.pairwise_lt_range

theorem permutations_range_nodup (k : Nat) : (permutations (List.range k)).Nodup :=
  (permutations_range_sorted k).imp (fun h he => by subst he; exact absurd h (List.lt_irrefl _))

theorem permsLex_zero {α : Type} (l : List α) : (permsLex l.length l)[0]? = some l := by
  induction l with
  | nil => rfl
  | cons x xs ih =>
    simp only [List.length_cons, permsLex, picks, List.flatMap_cons]
    rw [List.getElem?_append_left]
    · simp [ih]
    · simp [permsLex_length]
      cases h : permsLex xs.length xs with
      | nil => rw [h] at ih; simp at ih
      | cons => have := permsLex_length xs.length xs rfl; rw [h] at this; simp at this; omega

theorem permutations_zero {α : Type} (l : List α) : (permutations l)[0]? = some l := permsLex_zero l

theorem factorial_pos (n : Nat) : 0 < factorial n := by
  induction n with
  | zero => simp [factorial]
  | succ n ih => exact Nat.mul_pos (by omega) ih

/-! ### nthperm -/

theorem nthpermLoop_eq (n : Int) (pos : Int) (ps : List (List Nat)) :
    nthpermLoop n pos ps = ps[(n - pos).toNat]? := by
  induction ps generalizing pos with
  | nil => simp [nthpermLoop]
  | cons p ps ih =>
    rw [nthpermLoop]
    by_cases h : pos ≥ n
    · rw [if_pos h]
      have : (n - pos).toNat = 0 := by omega
      simp [this]
    · rw [if_neg h, ih]
      have : (n - pos).toNat = (n - (pos + 1)).toNat + 1 := by omega
      simp [this]

theorem mapE_ok' {α β : Type} {f : α → Except PyErr β} {g : α → β} {xs : List α}
    (h : ∀ x ∈ xs, f x = .ok (g x)) : mapE f xs = .ok (xs.map g) := by
  induction xs with
  | nil => rfl
  | cons x xs ih =>
    rw [mapE, h x (by simp), ih (fun y hy => h y (by simp [hy]))]
    rfl

theorem range_map_getElem {α : Type} (l : List α) (d : α) :
    (List.range l.length).map (fun i => l[i]?.getD d) = l := by
  apply List.ext_getElem?
  intro i
  by_cases h : i < l.length
  · simp [List.getElem?_range h, List.getElem?_eq_getElem h]
  · have : l.length ≤ i := by omega
    simp [this]

/-- `nthperm` reads off the `n`-th entry of the list of permutations. -/
theorem nthperm_eq {α : Type} (li : List α) (n : Nat) :
    nthperm li n = match (permutations li)[n]? with
      | some p => .ok p
      | none => if li.length = 0 then .ok [] else .error .typeError := by
  unfold nthperm
  rw [nthpermLoop_eq]
  have hn : ((n : Int) - 0).toNat = n := by omega
  rw [hn]
  cases li with
  | nil =>
    cases n with
    | zero => rfl
    | succ n =>
      have h1 : (permutations (List.range ([] : List α).length))[n + 1]? = none := by
        rw [List.getElem?_eq_none]; simp [permutations_length, factorial]
      have h2 : (permutations ([] : List α))[n + 1]? = none := by
        rw [List.getElem?_eq_none]; simp [permutations_length, factorial]
      rw [h1, h2]
  | cons d li => 
    generalize hl : d :: li = l
    have hm : permutations l = (permutations (List.range l.length)).map (List.map fun i => l[i]?.getD d) := by
      rw [← permutations_map, range_map_getElem]
    rw [hm, List.getElem?_map]
    cases hp : (permutations (List.range l.length))[n]? with
    | none => simp [← hl]
    | some p =>
      have hmem := mem_permutations.1 (List.mem_of_getElem? hp)
      simp only [Option.map_some]
      apply mapE_ok'
      intro i hi
      have : i < l.length := by simpa using hmem.subset hi
      simp [List.getElem?_eq_getElem this]

theorem nthperm_ok {α : Type} {li : List α} {n : Nat} (h : n < factorial li.length) :
    ∃ p, nthperm li n = .ok p ∧ (permutations li)[n]? = some p := by
  rw [← permutations_length] at h
  exact ⟨(permutations li)[n], by rw [nthperm_eq, List.getElem?_eq_getElem h], List.getElem?_eq_getElem h⟩

theorem nthperm_perm {α : Type} {li p : List α} {n : Nat} (h : nthperm li n = .ok p) : p.Perm li := by
  rw [nthperm_eq] at h
  cases hp : (permutations li)[n]? with
  | none =>
    rw [hp] at h
    cases li with
    | nil => simp at h; subst h; exact .refl _
    | cons => simp at h
  | some q =>
    rw [hp] at h
    simp at h; subst h
    exact mem_permutations.1 (List.mem_of_getElem? hp)

/-! ### unpermutate -/

theorem unpermLoop_spec {α : Type} (l tokens : List α) (is : List Nat) :
    ∀ (done : List Nat) (res : List (Option α)),
    (done ++ is).map (fun i => l[i]?) = tokens.map some →
    res.length = l.length →
    (∀ i, i ∈ done → res[i]? = (l[i]?).map some) →
    ∃ res', unpermLoop tokens done.length res is = .ok res' ∧ res'.length = l.length ∧
      ∀ i, i ∈ done ++ is → res'[i]? = (l[i]?).map some := by
  induction is with
  | nil =>
    intro done res _ hl hd
    exact ⟨res, rfl, hl, by simpa using hd⟩
  | cons i is ih =>
    intro done res ht hl hd
    have hlen : tokens.length = (done ++ i :: is).length := by
      have := congrArg List.length ht
      simpa using this.symm
    have htok : tokens[done.length]?.map some = some (l[i]?) := by
      have := congrArg (fun x => x[done.length]?) ht
      simp at this
      simp [← this]
    cases htk : tokens[done.length]? with
    | none => simp [htk] at htok
    | some t =>
      simp [htk] at htok
      rw [unpermLoop, htk]
      have hil : i < l.length := by
        rcases Nat.lt_or_ge i l.length with h | h
        · exact h
        · rw [List.getElem?_eq_none h] at htok; simp at htok
      have := ih (done ++ [i]) (res.set i (some t)) (by simpa using ht) (by simpa using hl) ?_
      · simpa using this
      · intro j hj
        by_cases hji : j = i
        · subst hji
          rw [List.getElem?_set_self (by omega), ← htok]
          rfl
        · rw [List.getElem?_set_ne (by omega)]
          apply hd
          simpa [hji] using hj

theorem mapE_some {α : Type} (l : List α) :
    mapE (fun o : Option α => match o with
      | some x => .ok x
      | none => .error .typeError) (l.map some) = .ok l := by
  induction l with
  | nil => rfl
  | cons x xs ih => simp only [List.map_cons, mapE, ih]; rfl

theorem unpermutate_nthperm {α : Type} {l p : List α} {n : Nat} (hn : n < factorial l.length)
    (h : nthperm l n = .ok p) : unpermutate p n = .ok l := by
  have hlen := (nthperm_perm h).length_eq
  obtain ⟨is, his, his'⟩ := nthperm_ok (li := List.range l.length) (n := n) (by simpa using hn)
  have hperm := mem_permutations.1 (List.mem_of_getElem? his')
  have htok : is.map (fun i => l[i]?) = p.map some := by
    have h1 : (permutations (l.map some))[n]? = some (p.map some) := by
      rw [permutations_map, List.getElem?_map]
      rw [nthperm_eq] at h
      have hn' : n < (permutations l).length := by rw [permutations_length]; exact hn
      rw [List.getElem?_eq_getElem hn'] at h ⊢
      simp at h
      simp [h]
    have h2 : (permutations ((List.range l.length).map (fun i => l[i]?)))[n]? = some (is.map fun i => l[i]?) := by
      rw [permutations_map, List.getElem?_map, his']; rfl
    have h3 : (List.range l.length).map (fun i => l[i]?) = l.map some := by
      apply List.ext_getElem?
      intro i
      by_cases hi : i < l.length
      · simp [List.getElem?_range hi, List.getElem?_eq_getElem hi]
      · have : l.length ≤ i := by omega
        simp [this]
    rw [h3, h1] at h2
    simpa using h2.symm
  unfold unpermutate
  rw [hlen, his]
  obtain ⟨res, hres, hresl, hall⟩ := unpermLoop_spec l p is [] (List.replicate l.length none)
    (by simpa using htok) (by simp) (by simp)
  have hres' : res = l.map some := by
    apply List.ext_getElem?
    intro i
    by_cases hi : i < l.length
    · rw [hall i (by simpa using hperm.symm.subset (List.mem_range.2 hi))]
      simp
    · have h1 : l.length ≤ i := by omega
      have h2 : res.length ≤ i := by omega
      simp [h1, h2]
  simp only [bind, Except.bind]
  rw [show unpermLoop p 0 (List.replicate l.length none) is = .ok res from hres, hres']
  exact mapE_some l

theorem nthperm_map {α β : Type} (f : α → β) (l : List α) (n : Nat) :
    nthperm (l.map f) n = (nthperm l n).map (List.map f) := by
  rw [nthperm_eq, nthperm_eq, permutations_map, List.getElem?_map]
  cases (permutations l)[n]? with
  | some p => rfl
  | none => by_cases h : l.length = 0 <;> simp [h, Except.map]

end GB
