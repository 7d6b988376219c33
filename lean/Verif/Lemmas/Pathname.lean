import Verif.Model.Pathname
import Verif.Spec.Pathname
import Verif.Lemmas.Listing
import Verif.Lemmas.DatasetOps

/-! Lemmas on the texts of paths. -/

namespace Verif.Pn

open Spec Path

theorem splitSep_ne (s : List Char) : splitSep s ≠ [] := by
  cases s with
  | nil => simp [splitSep]
  | cons c s =>
    simp only [splitSep]
    split
    · simp
    · split <;> simp

theorem splitSep_append (a b : List Char) :
    splitSep (a ++ '/' :: b) = splitSep a ++ splitSep b := by
  induction a with
  | nil => simp [splitSep]
  | cons c a ih =>
    simp only [List.cons_append, splitSep, ih]
    by_cases hc : c = '/'
    · simp [hc]
    · simp only [if_neg hc]
      cases h : splitSep a with
      | nil => exact absurd h (splitSep_ne a)
      | cons x t => rfl

theorem splitSep_name (c : List Char) (h : '/' ∉ c) : splitSep c = [c] := by
  induction c with
  | nil => rfl
  | cons x c ih =>
    simp only [List.mem_cons, not_or] at h
    simp only [splitSep, if_neg (Ne.symm h.1), ih h.2]

theorem splitSep_join (l : List (List Char)) (hne : l ≠ []) (h : ∀ c ∈ l, '/' ∉ c) :
    splitSep (joinNames l) = l := by
  induction l with
  | nil => exact absurd rfl hne
  | cons x t ih =>
    cases t with
    | nil => exact splitSep_name x (h x (by simp))
    | cons y t =>
      simp only [joinNames]
      rw [splitSep_append, splitSep_name x (h x (by simp)),
        ih (by simp) fun c hc => h c (by simp [hc])]
      rfl

theorem joinNames_snoc (l : List (List Char)) (hne : l ≠ []) (c : List Char) :
    joinNames (l ++ [c]) = joinNames l ++ '/' :: c := by
  induction l with
  | nil => exact absurd rfl hne
  | cons x t ih =>
    cases t with
    | nil => rfl
    | cons y t =>
      have := ih (by simp)
      simp only [List.cons_append, joinNames, List.append_assoc] at this ⊢
      rw [this]

theorem joinNames_split (s : List Char) : joinNames (splitSep s) = s := by
  induction s with
  | nil => rfl
  | cons c s ih =>
    simp only [splitSep]
    by_cases hc : c = '/'
    · simp only [if_pos hc]
      cases h : splitSep s with
      | nil => exact absurd h (splitSep_ne s)
      | cons x t => rw [h] at ih; simp [joinNames, ih, hc]
    · simp only [if_neg hc]
      cases h : splitSep s with
      | nil => exact absurd h (splitSep_ne s)
      | cons x t =>
        rw [h] at ih
        cases t with
        | nil => simpa [joinNames] using ih
        | cons y t => simpa [joinNames] using ih

theorem splitSep_mem (s : List Char) : ∀ c ∈ splitSep s, '/' ∉ c := by
  induction s with
  | nil => simp [splitSep]
  | cons c s ih =>
    simp only [splitSep]
    by_cases hc : c = '/'
    · simp only [if_pos hc]
      intro x hx
      rcases List.mem_cons.1 hx with rfl | hx
      · simp
      · exact ih x hx
    · simp only [if_neg hc]
      cases h : splitSep s with
      | nil => exact absurd h (splitSep_ne s)
      | cons y t =>
        rw [h] at ih
        intro x hx
        rcases List.mem_cons.1 hx with rfl | hx
        · simp only [List.mem_cons, not_or]
          exact ⟨fun h => hc h.symm, ih y (by simp)⟩
        · exact ih x (by simp [hx])

theorem leads_fold (p : List Char) (d : List (List Char)) (h : LeadsTo p d) :
    ∃ cs, splitSep p = [] :: cs ∧ cs.foldl go [] = d := by
  induction h with
  | root => exact ⟨[], rfl, rfl⟩
  | step p d c _ hc ih =>
    obtain ⟨cs, h1, h2⟩ := ih
    refine ⟨cs ++ [c], ?_, ?_⟩
    · rw [splitSep_append, h1, splitSep_name c hc]; rfl
    · rw [List.foldl_append, h2]; rfl

theorem leads_join (cs : List (List Char)) (h : ∀ c ∈ cs, '/' ∉ c) :
    LeadsTo (joinNames ([] :: cs)) (cs.foldl go []) := by
  induction hn : cs.length generalizing cs with
  | zero =>
    rw [List.length_eq_zero_iff] at hn
    subst hn
    exact .root
  | succ n ih =>
    have hne : cs ≠ [] := by intro h0; rw [h0] at hn; simp at hn
    have e : cs = cs.dropLast ++ [cs.getLast hne] := (List.dropLast_concat_getLast hne).symm
    have h1 := ih cs.dropLast (fun c hc => h c ((List.dropLast_sublist _).subset hc)) (by
      rw [List.length_dropLast, hn]; rfl)
    have h2 := LeadsTo.step _ _ (cs.getLast hne) h1 (h _ (List.getLast_mem hne))
    rw [← joinNames_snoc _ (by simp)] at h2
    rw [e, List.foldl_append]
    simpa using h2

theorem leads_exists (p : List Char) (h : p.head? = some '/') : ∃ d, LeadsTo p d := by
  cases p with
  | nil => simp at h
  | cons c s =>
    simp only [List.head?_cons, Option.some.injEq] at h
    subst h
    have := leads_join (splitSep s) (splitSep_mem s)
    have e : joinNames ([] :: splitSep s) = '/' :: s := by
      cases hs : splitSep s with
      | nil => exact absurd hs (splitSep_ne s)
      | cons x t =>
        simp only [joinNames, List.nil_append]
        rw [← hs, joinNames_split]
    rw [e] at this
    exact ⟨_, this⟩

theorem leads_unique {p : List Char} {d d' : List (List Char)} (h : LeadsTo p d)
    (h' : LeadsTo p d') : d = d' := by
  obtain ⟨cs, h1, h2⟩ := leads_fold p d h
  obtain ⟨cs', h1', h2'⟩ := leads_fold p d' h'
  rw [h1] at h1'
  cases h1'
  rw [← h2, ← h2']

theorem go_entry (d : List (List Char)) (c : List Char) (hd : ∀ x ∈ d, EntryName x)
    (hc : '/' ∉ c) : ∀ x ∈ go d c, EntryName x := by
  unfold go
  split
  · exact hd
  · next h1 =>
    split
    · exact fun x hx => hd x ((List.dropLast_sublist _).subset hx)
    · next h2 =>
      intro x hx
      rcases List.mem_append.1 hx with hx | hx
      · exact hd x hx
      · simp only [List.mem_singleton] at hx
        subst hx
        exact ⟨hc, fun h => h1 (.inl h), fun h => h1 (.inr h), h2⟩

theorem leads_entry {p : List Char} {d : List (List Char)} (h : LeadsTo p d) :
    ∀ x ∈ d, EntryName x := by
  induction h with
  | root => simp
  | step p d c _ hc ih => exact go_entry d c ih hc

theorem normLoop_fold (i : Nat) (hi : 0 < i) (cs acc : List (List Char))
    (hacc : ∀ x ∈ acc, x ≠ "..".toList) :
    (normLoop i acc cs).reverse = cs.foldl go acc.reverse := by
  induction cs generalizing acc with
  | nil => rfl
  | cons c t ih =>
    simp only [normLoop, List.foldl_cons]
    have hdot : ".".toList = ['.'] := rfl
    have hdd : "..".toList = ['.', '.'] := rfl
    by_cases h1 : c = [] ∨ c = ['.']
    · have hg : go acc.reverse c = acc.reverse := by unfold go; rw [hdot, if_pos h1]
      rw [if_pos h1, hg, ih acc hacc]
    · rw [if_neg h1]
      by_cases h2 : c = ['.', '.']
      · have hg : go acc.reverse c = acc.reverse.dropLast := by
          unfold go; rw [hdot, if_neg h1, hdd, if_pos h2]
        have hn : ¬ (c ≠ ['.', '.'] ∨ (i = 0 ∧ acc = []) ∨ acc.head? = some ['.', '.']) := by
          intro h
          rcases h with h | h | h
          · exact h h2
          · omega
          · cases acc with
            | nil => simp at h
            | cons x a =>
              simp only [List.head?_cons, Option.some.injEq] at h
              exact hacc x (by simp) h
        rw [if_neg hn, hg, ih (acc.drop 1) fun x hx => hacc x (List.mem_of_mem_drop hx)]
        congr 1
        cases acc with
        | nil => rfl
        | cons x a => simp
      · have hg : go acc.reverse c = acc.reverse ++ [c] := by
          unfold go; rw [hdot, if_neg h1, hdd, if_neg h2]
        rw [if_pos (.inl h2), hg, ih (c :: acc) fun x hx => by
          rcases List.mem_cons.1 hx with rfl | hx
          · exact h2
          · exact hacc x hx]
        simp

theorem slashes_pos (p : List Char) (h : p.head? = some '/') : 0 < slashes p := by
  cases p with
  | nil => simp at h
  | cons c s =>
    simp only [List.head?_cons, Option.some.injEq] at h
    subst h
    cases s with
    | nil => simp [slashes]
    | cons c s =>
      by_cases hc : c = '/'
      · subst hc
        cases s with
        | nil => simp [slashes]
        | cons c s =>
          by_cases hc : c = '/'
          · subst hc; simp [slashes]
          · simp [slashes, hc]
      · simp [slashes, hc]

theorem normpath_leads {p : List Char} {d : List (List Char)} (h : p.head? = some '/')
    (hd : LeadsTo p d) : normpath p = List.replicate (slashes p) '/' ++ joinNames d := by
  obtain ⟨cs, h1, h2⟩ := leads_fold p d hd
  have hp := slashes_pos p h
  have e : (normLoop (slashes p) [] (splitSep p)).reverse = d := by
    rw [normLoop_fold _ hp _ _ (by simp), h1]
    simpa [go] using h2
  unfold normpath
  rw [e]
  obtain ⟨n, hn⟩ : ∃ n, slashes p = n + 1 := ⟨slashes p - 1, by omega⟩
  rw [hn, List.replicate_succ]
  rfl

/-! ### the file systems -/

theorem slashes_one (p : List Char) (h : p.head? = some '/') (h2 : ¬ TwoSlashes p) :
    slashes p = 1 := by
  match p with
  | [] => simp at h
  | [c] =>
    simp only [List.head?_cons, Option.some.injEq] at h
    subst h; rfl
  | c :: c2 :: s =>
    simp only [List.head?_cons, Option.some.injEq] at h
    subst h
    by_cases hc : c2 = '/'
    · subst hc
      cases s with
      | nil => exact absurd ⟨[], rfl, by simp⟩ h2
      | cons c3 s =>
        by_cases hc3 : c3 = '/'
        · subst hc3; simp [slashes]
        · exact absurd ⟨c3 :: s, rfl, by simp [hc3]⟩ h2
    · simp [slashes, hc]

theorem leads_trail {p : List Char} {d : List (List Char)} (n : Nat) (h : LeadsTo p d) :
    LeadsTo (p ++ List.replicate n '/') d := by
  induction n with
  | zero => simpa using h
  | succ n ih =>
    have := LeadsTo.step _ _ [] ih (by simp)
    simp only [go, List.append_assoc] at this
    rw [List.replicate_succ']
    simpa using this

theorem leads_lead {s : List Char} {d : List (List Char)} (h : LeadsTo ('/' :: '/' :: s) d) :
    LeadsTo ('/' :: s) d := by
  obtain ⟨d', h'⟩ := leads_exists ('/' :: s) rfl
  obtain ⟨cs, h1, h2⟩ := leads_fold _ _ h
  obtain ⟨cs', h1', h2'⟩ := leads_fold _ _ h'
  simp only [splitSep, if_true, List.cons.injEq, true_and] at h1 h1'
  rw [← h1, List.foldl_cons, h1'] at h2
  have : d = d' := by rw [← h2, ← h2']; rfl
  rw [this]
  exact h'

theorem dropWhile_replicate (l : List Char) :
    ∃ n, l = List.replicate n '/' ++ l.dropWhile (· == '/') := by
  induction l with
  | nil => exact ⟨0, rfl⟩
  | cons c l ih =>
    obtain ⟨n, hn⟩ := ih
    by_cases hc : c = '/'
    · subst hc
      refine ⟨n + 1, ?_⟩
      rw [List.replicate_succ, List.dropWhile_cons_of_pos (by simp), List.cons_append, ← hn]
    · exact ⟨0, by simp [hc]⟩

theorem dropWhile_head (l : List Char) (s : List Char) : l.dropWhile (· == '/') ≠ '/' :: s := by
  induction l with
  | nil => simp
  | cons c l ih =>
    by_cases hc : c = '/'
    · subst hc
      rw [List.dropWhile_cons_of_pos (by simp)]
      exact ih
    · rw [List.dropWhile_cons_of_neg (by simp [hc])]
      simp [hc]

theorem rstrip_append (p : List Char) : ∃ n, p = rstrip p ++ List.replicate n '/' := by
  obtain ⟨n, hn⟩ := dropWhile_replicate p.reverse
  refine ⟨n, ?_⟩
  have := congrArg List.reverse hn
  rw [List.reverse_reverse, List.reverse_append, List.reverse_replicate] at this
  exact this

theorem rstrip_last (p s : List Char) : rstrip p ≠ s ++ ['/'] := by
  intro h
  have := congrArg List.reverse h
  unfold rstrip at this
  rw [List.reverse_reverse, List.reverse_append] at this
  exact dropWhile_head _ _ this

/-- Trailing slashes do not matter. -/
theorem leads_rstrip {p : List Char} {d : List (List Char)} (h : LeadsTo p d)
    (hr : rstrip p = [] ∨ (rstrip p).head? = some '/') : LeadsTo (rstrip p) d := by
  obtain ⟨n, hn⟩ := rstrip_append p
  have : ∃ d', LeadsTo (rstrip p) d' := by
    rcases hr with hr | hr
    · exact ⟨[], by rw [hr]; exact .root⟩
    · exact leads_exists _ hr
  obtain ⟨d', h'⟩ := this
  have h2 := leads_trail n h'
  rw [← hn] at h2
  rw [leads_unique h h2]
  exact h'

theorem leads_slash {d : List (List Char)} (h : LeadsTo [] d) : LeadsTo ['/'] d :=
  leads_trail 1 h

theorem rstrip_head (p : List Char) (h : p.head? = some '/') :
    rstrip p = [] ∨ (rstrip p).head? = some '/' := by
  obtain ⟨n, hn⟩ := rstrip_append p
  cases hr : rstrip p with
  | nil => exact .inl rfl
  | cons c s =>
    rw [hr] at hn
    rw [hn] at h
    exact .inr h

theorem normal_of (q : List Char) (d : List (List Char)) (h : q.head? = some '/')
    (h2 : ¬ TwoSlashes q) (hd : LeadsTo q d) : normpath q = '/' :: joinNames d := by
  rw [normpath_leads h hd, slashes_one q h h2]
  rfl

theorem normalize_local (cwd p : List Char) (d : List (List Char)) (h : p.head? = some '/')
    (h2 : ¬ TwoSlashes p) (hd : LeadsTo p d) :
    normalizePath (localFs cwd true) p = '/' :: joinNames d := by
  obtain ⟨s, rfl⟩ : ∃ s, p = '/' :: s := by
    cases p with
    | nil => simp at h
    | cons c s => exact ⟨s, by simpa using h⟩
  have hh := rstrip_head _ h
  have hl := leads_rstrip hd hh
  simp only [normalizePath, localFs, if_true]
  cases hr : rstrip ('/' :: s) with
  | nil =>
    rw [hr] at hl
    exact normal_of ['/'] d rfl (by rintro ⟨t, ht, _⟩; simp at ht) (leads_slash hl)
  | cons c r =>
    rw [hr] at hl hh
    simp only [List.cons_ne_nil, if_false]
    refine normal_of _ d (by simpa using hh) ?_ hl
    rintro ⟨t, ht, hn⟩
    obtain ⟨n, hp⟩ := rstrip_append ('/' :: s)
    rw [hr, ht] at hp
    cases t with
    | nil => exact rstrip_last ('/' :: s) ['/'] (by rw [hr, ht]; rfl)
    | cons c3 t =>
      refine h2 ⟨c3 :: t ++ List.replicate n '/', hp, ?_⟩
      intro s' hs'
      simp only [List.cons_append, List.cons.injEq] at hs'
      exact hn t (by rw [hs'.1])

theorem normalize_memory (p : List Char) (d : List (List Char)) (h : p.head? = some '/')
    (hd : LeadsTo p d) : normalizePath memoryFs p = '/' :: joinNames d := by
  -- the slashes at the beginning
  have hl : LeadsTo ('/' :: p.dropWhile (· == '/')) d := by
    obtain ⟨n, hn⟩ := dropWhile_replicate p
    have key : ∀ n s, LeadsTo (List.replicate (n + 1) '/' ++ s) d → LeadsTo ('/' :: s) d := by
      intro n
      induction n with
      | zero => intro s hs; simpa using hs
      | succ n ih =>
        intro s hs
        apply ih
        rw [List.replicate_succ, List.replicate_succ] at hs
        rw [List.replicate_succ]
        exact leads_lead hs
    cases n with
    | zero =>
      cases p with
      | nil => simp at h
      | cons c s =>
        simp only [List.head?_cons, Option.some.injEq] at h
        subst h
        simp only [List.replicate_zero, List.nil_append] at hn
        exact absurd hn.symm (dropWhile_head _ s)
    | succ n =>
      rw [hn] at hd
      exact key n _ hd
  generalize hq : p.dropWhile (· == '/') = q at hl
  have hq' : ∀ s, q ≠ '/' :: s := by intro s; rw [← hq]; exact dropWhile_head p s
  obtain ⟨n, hn⟩ := rstrip_append q
  have hr : LeadsTo (if rstrip q = [] then ['/'] else '/' :: rstrip q) d := by
    split
    · next h0 =>
      rw [h0, List.nil_append] at hn
      rw [hn] at hl
      have h3 := leads_trail n (leads_slash .root)
      rw [leads_unique hl h3]
      exact leads_slash .root
    · obtain ⟨d', h'⟩ := leads_exists ('/' :: rstrip q) rfl
      have h3 := leads_trail n h'
      rw [List.cons_append, ← hn] at h3
      rw [leads_unique hl h3]
      exact h'
  simp only [normalizePath, memoryFs, hq, if_true]
  split at hr
  · next h0 =>
    simp only [h0, if_true]
    exact normal_of _ d rfl (by rintro ⟨t, ht, _⟩; simp at ht) hr
  · next h0 =>
    simp only [h0, if_false, List.cons_ne_nil]
    refine normal_of _ d rfl ?_ hr
    rintro ⟨t, ht, hn2⟩
    simp only [List.cons.injEq, true_and] at ht
    rw [ht] at hn
    exact hq' _ hn

theorem joinNames_inj (d d' : List (List Char)) (h : ∀ x ∈ d, EntryName x)
    (h' : ∀ x ∈ d', EntryName x) (e : joinNames d = joinNames d') : d = d' := by
  have key : ∀ l : List (List Char), (∀ x ∈ l, EntryName x) → l ≠ [] → joinNames l ≠ [] := by
    intro l hl hne h0
    have := splitSep_join l hne fun c hc => (hl c hc).1
    rw [h0] at this
    exact (hl [] (by rw [← this]; simp [splitSep])).2.1 rfl
  by_cases hd : d = []
  · subst hd
    by_cases hd' : d' = []
    · exact hd'.symm
    · exact absurd e.symm (key d' h' hd')
  · by_cases hd' : d' = []
    · subst hd'
      exact absurd e (key d h hd)
    · rw [← splitSep_join d hd fun c hc => (h c hc).1, e,
        splitSep_join d' hd' fun c hc => (h' c hc).1]

theorem fold_entry (d : List (List Char)) (acc : List (List Char)) (h : ∀ x ∈ d, EntryName x) :
    d.foldl go acc = acc ++ d := by
  induction d generalizing acc with
  | nil => simp
  | cons c d ih =>
    have hc := h c (by simp)
    have hg : go acc c = acc ++ [c] := by
      unfold go
      rw [if_neg (fun h => h.elim hc.2.1 hc.2.2.1), if_neg hc.2.2.2]
    rw [List.foldl_cons, hg, ih _ fun x hx => h x (by simp [hx])]
    simp

/-- The absolute path made of the names of a directory leads to it. -/
theorem leads_self (d : List (List Char)) (h : ∀ x ∈ d, EntryName x) :
    LeadsTo ('/' :: joinNames d) d := by
  cases d with
  | nil => exact leads_slash .root
  | cons c t =>
    have := leads_join (c :: t) fun x hx => (h x hx).1
    rw [fold_entry _ _ h] at this
    exact this

/-! ### relative paths -/

theorem slashes_below (b x : List Char) (h : BelowRoot b) :
    slashes (b ++ '/' :: x) = slashes b := by
  obtain ⟨c, hc, hne⟩ := h
  match b with
  | [] => simp at hc
  | [a] =>
    by_cases ha : a = '/'
    · simp [ha] at hc; exact absurd hc hne
    · simp [slashes, ha]
  | [a, b] =>
    by_cases ha : a = '/'
    · subst ha
      by_cases hb : b = '/'
      · simp [hb] at hc; exact absurd hc hne
      · simp [slashes, hb]
    · simp [slashes, ha]
  | a :: b :: c3 :: t =>
    by_cases ha : a = '/'
    · subst ha
      by_cases hb : b = '/'
      · subst hb
        by_cases h3 : c3 = '/'
        · simp [slashes, h3]
        · simp [slashes, h3]
      · simp [slashes, hb]
    · simp [slashes, ha]

theorem parts_entries (ns : List (List Char)) (h : ∀ x ∈ ns, EntryName x) :
    ns.filter (fun c => !(c.isEmpty || c == ['.'])) = ns := by
  rw [List.filter_eq_self]
  intro c hc
  obtain ⟨_, h1, h2, _⟩ := h c hc
  have h2' : c ≠ ['.'] := h2
  simp [h1, h2']

theorem parts_append (b : List Char) (ns : List (List Char)) (hne : ns ≠ [])
    (h : ∀ x ∈ ns, EntryName x) : parts (b ++ '/' :: joinNames ns) = parts b ++ ns := by
  unfold parts
  rw [splitSep_append, splitSep_join ns hne fun c hc => (h c hc).1, List.filter_append,
    parts_entries ns h]

theorem relative_below (b : List Char) (ns : List (List Char)) (hb : BelowRoot b) (hne : ns ≠ [])
    (h : ∀ x ∈ ns, EntryName x) :
    relativeTo (b ++ '/' :: joinNames ns) b = .ok (joinNames ns) := by
  unfold relativeTo
  rw [parts_append b ns hne h, slashes_below b _ hb, List.drop_left]
  have : (parts b).isPrefixOf (parts b ++ ns) = true := by
    rw [List.isPrefixOf_iff_prefix]; exact List.prefix_append ..
  rw [if_pos ⟨rfl, this⟩]
  cases ns with
  | nil => exact absurd rfl hne
  | cons c t => rfl

theorem slashes_root (x : List Char) (h : ∀ s, x ≠ '/' :: s) : slashes ('/' :: x) = 1 := by
  cases x with
  | nil => rfl
  | cons c s =>
    have : c ≠ '/' := by intro hc; exact h s (by rw [hc])
    simp [slashes, this]

theorem joinNames_head (ns : List (List Char)) (h : ∀ x ∈ ns, EntryName x) (s : List Char) :
    joinNames ns ≠ '/' :: s := by
  cases ns with
  | nil => simp [joinNames]
  | cons c t =>
    obtain ⟨h1, h2, _⟩ := h c (by simp)
    cases c with
    | nil => exact absurd rfl h2
    | cons a c =>
      simp only [List.mem_cons, not_or] at h1
      cases t with
      | nil => simp only [joinNames]; intro he; exact h1.1 (List.cons.inj he).1.symm
      | cons y t =>
        simp only [joinNames, List.cons_append]; intro he; exact h1.1 (List.cons.inj he).1.symm

theorem relative_root (ns : List (List Char)) (hne : ns ≠ []) (h : ∀ x ∈ ns, EntryName x) :
    relativeTo ('/' :: joinNames ns) ['/'] = .ok (joinNames ns) := by
  have h1 := parts_append [] ns hne h
  simp only [List.nil_append] at h1
  unfold relativeTo
  rw [h1, slashes_root _ (joinNames_head ns h)]
  have hp : parts [] = [] := rfl
  have hp' : parts ['/'] = [] := rfl
  rw [hp, hp']
  cases ns with
  | nil => exact absurd rfl hne
  | cons c t => simp [slashes]

theorem common_prefix (d ns : List (List Char)) : common d (d ++ ns) = d.length := by
  induction d with
  | nil => cases ns <;> rfl
  | cons x d ih => simp [common, ih]

theorem filter_split (i : Nat) (d : List (List Char)) (h : ∀ x ∈ d, EntryName x) :
    (splitSep (List.replicate i '/' ++ joinNames d)).filter (fun c => !c.isEmpty) = d := by
  induction i with
  | zero =>
    cases d with
    | nil => rfl
    | cons c t =>
      rw [List.replicate_zero, List.nil_append, splitSep_join _ (by simp) fun c hc => (h c hc).1,
        List.filter_eq_self]
      intro x hx
      simp [(h x hx).2.1]
  | succ i ih =>
    rw [List.replicate_succ, List.cons_append]
    simp only [splitSep, if_true]
    rw [List.filter_cons_of_neg (by simp), ih]

theorem relpath_below (cwd b : List Char) (ns : List (List Char))
    (hc : cwd.head? = some '/') (hne : ns ≠ []) (h : ∀ x ∈ ns, EntryName x) :
    relpath cwd (b ++ '/' :: joinNames ns) b = .ok (joinNames ns) ∨ b = [] := by
  have key : ∀ a : List Char, a.head? = some '/' → ∃ i j d, (∀ x ∈ d, EntryName x) ∧
      normpath a = List.replicate i '/' ++ joinNames d ∧
      normpath (a ++ '/' :: joinNames ns) = List.replicate j '/' ++ joinNames (d ++ ns) := by
    intro a ha
    obtain ⟨d, hd⟩ := leads_exists a ha
    have hd2 : LeadsTo (a ++ '/' :: joinNames ns) (d ++ ns) := by
      have : ∀ l : List (List Char), (∀ x ∈ l, EntryName x) → l ≠ [] → ∀ a d, LeadsTo a d →
          LeadsTo (a ++ '/' :: joinNames l) (d ++ l) := by
        intro l
        induction l with
        | nil => intro _ h0; exact absurd rfl h0
        | cons c t ih =>
          intro hl _ a d hd
          have h1 := LeadsTo.step a d c hd (hl c (by simp)).1
          have hg : go d c = d ++ [c] := by simpa using fold_entry [c] d (by simpa using hl c (by simp))
          rw [hg] at h1
          cases t with
          | nil => exact h1
          | cons y t =>
            have h2 := ih (fun x hx => hl x (by simp [hx])) (by simp) _ _ h1
            simp only [joinNames]
            simpa using h2
      exact this ns h hne a d hd
    exact ⟨_, _, d, leads_entry hd, normpath_leads ha hd,
      normpath_leads (by cases a with | nil => simp at ha | cons c s => exact ha) hd2⟩
  by_cases hb : b = []
  · exact .inr hb
  refine .inl ?_
  have : ∃ i j d, (∀ x ∈ d, EntryName x) ∧
      abspath cwd b = List.replicate i '/' ++ joinNames d ∧
      abspath cwd (b ++ '/' :: joinNames ns) = List.replicate j '/' ++ joinNames (d ++ ns) := by
    by_cases hh : b.head? = some '/'
    · obtain ⟨i, j, d, h1, h2, h3⟩ := key b hh
      obtain ⟨s, rfl⟩ : ∃ s, b = '/' :: s := by
        cases b with
        | nil => exact absurd rfl hb
        | cons c s => exact ⟨s, by simpa using hh⟩
      exact ⟨i, j, d, h1, h2, h3⟩
    · obtain ⟨i, j, d, h1, h2, h3⟩ := key (cwd ++ '/' :: b) (by
        cases cwd with
        | nil => simp at hc
        | cons c s => exact hc)
      refine ⟨i, j, d, h1, ?_, ?_⟩
      · rw [← h2]
        unfold abspath
        split
        · exact absurd rfl hh
        · rfl
      · rw [← h3]
        unfold abspath
        split
        · next s hs =>
          cases b with
          | nil => exact absurd rfl hb
          | cons c s =>
            simp only [List.cons_append, List.cons.injEq] at hs
            exact absurd (by rw [hs.1]; rfl) hh
        · simp
  obtain ⟨i, j, d, h1, h2, h3⟩ := this
  unfold relpath
  rw [if_neg (by simp), h2, h3, filter_split i d h1, filter_split j (d ++ ns) (by
    intro x hx
    rcases List.mem_append.1 hx with hx | hx
    · exact h1 x hx
    · exact h x hx)]
  simp only [common_prefix, Nat.sub_self, List.replicate_zero, List.nil_append, List.drop_left]
  cases ns with
  | nil => exact absurd rfl hne
  | cons c t => rfl

end Verif.Pn
