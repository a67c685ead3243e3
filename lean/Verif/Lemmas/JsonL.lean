import Verif.Model.Json
import Verif.Spec.Json

/-!
Reading what has been written as JSON.
-/

namespace Booklit

open Json

theorem hexChar_low : ∀ n < 128, hexChar '0' '0' (jsonHex (n / 16)) (jsonHex (n % 16)) = some (Char.ofNat n) := by
  decide +kernel

theorem hexChar_sep : ∀ n ∈ [8232, 8233], hexChar '2' '0' '2' (jsonHex (n % 16)) = some (Char.ofNat n) := by
  decide +kernel

theorem jsonHex_not_u : ∀ n < 16, jsonHex n ≠ '"' := by decide +kernel

theorem readStr_char (short : Bool) (c : Char) (s : Str) :
    readStr (jsonChar short c ++ s) = (readStr s).map fun r => (c :: r.1, r.2) := by
  have hc : Char.ofNat c.toNat = c := Char.ofNat_toNat c
  have bind : ∀ x : Char, (do let (t, rest) ← readStr s; some (x :: t, rest)) = (readStr s).map fun r => (x :: r.1, r.2) := by
    intro x
    cases readStr s <;> rfl
  unfold jsonChar
  split
  · rename_i h
    rcases h with rfl | rfl <;> simp [readStr, escaped, bind]
  · rename_i h0
    split
    · rename_i h; subst h; simp [readStr, escaped, bind]
    · split
      · rename_i h; subst h; simp [readStr, escaped, bind]
      · split
        · rename_i h; subst h; simp [readStr, escaped, bind]
        · split
          · rename_i h
            rw [h.2] at hc
            subst hc
            simp [readStr, escaped, bind]
          · split
            · rename_i h
              rw [h.2] at hc
              subst hc
              simp [readStr, escaped, bind]
            · split
              · rename_i h
                have hlt : c.toNat < 128 := by
                  rcases h with h | rfl | rfl | rfl
                  · omega
                  all_goals decide
                have := hexChar_low _ hlt
                rw [hc] at this
                simp only [List.cons_append, List.nil_append, readStr, this]
                exact bind c
              · split
                · rename_i h
                  have := hexChar_sep c.toNat (by simpa using h)
                  rw [hc] at this
                  simp only [List.cons_append, List.nil_append, readStr, this]
                  exact bind c
                · rename_i h _
                  have h32 : ¬ (c.toNat < 32 ∨ c = '\\') := by
                    rintro (h' | h')
                    · exact h (.inl h')
                    · exact h0 (.inr h')
                  rw [List.cons_append, List.nil_append, readStr]
                  · rw [if_neg h32]
                    exact bind c
                  · rintro rfl; exact h0 (.inl rfl)
                  · rintro a b c' d s' rfl _; exact h0 (.inr rfl)
                  · rintro c' s' rfl _; exact h0 (.inr rfl)

theorem readStr_all (short : Bool) (s rest : Str) :
    readStr (s.flatMap (jsonChar short) ++ ('"' :: rest)) = some (s, rest) := by
  induction s with
  | nil => simp [readStr]
  | cons c s ih =>
    rw [List.flatMap_cons, List.append_assoc, readStr_char, ih]
    rfl

theorem readNum_digits : ∀ (ds : List Char) (n : Nat) (rest : Str), (∀ c ∈ ds, c.isDigit = true) →
    (∀ c, rest.head? = some c → c.isDigit = false) →
    readNum n (ds ++ rest) = (ds.foldl (fun n c => n * 10 + (c.toNat - 48)) n, rest)
  | [], n, rest, _, hr => by
    cases rest with
    | nil => rfl
    | cons c s =>
      have := hr c rfl
      simp only [List.nil_append, readNum, List.foldl_nil]
      rw [if_neg]
      intro h
      simp only [Char.isDigit, Bool.and_eq_false_iff, decide_eq_false_iff_not] at this
      rcases this with this | this
      · exact this h.1
      · exact this h.2
  | d :: ds, n, rest, hd, hr => by
    have h := hd d (.head _)
    simp only [Char.isDigit, Bool.and_eq_true, decide_eq_true_eq] at h
    rw [List.cons_append, readNum, if_pos (show '0' ≤ d ∧ d ≤ '9' from h), readNum_digits ds _ rest (fun c hc => hd c (.tail _ hc)) hr]
    rfl

theorem foldl_digits (ds : List Char) (n : Nat) (h : ∀ c ∈ ds, c.isDigit = true) :
    ds.foldl (fun n c => n * 10 + (c.toNat - 48)) n = Nat.ofDigitChars 10 ds n := by
  simp only [Nat.ofDigitChars]
  induction ds generalizing n with
  | nil => rfl
  | cons d ds ih => 
    simp only [List.foldl_cons]
    rw [ih _ (fun c hc => h c (.tail _ hc)), Nat.mul_comm]
    rfl

theorem digits_head {n : Nat} (hn : n ≠ 0) : ∃ d ds, Nat.toDigits 10 n = d :: ds ∧ d ≠ '0' := by
  induction n using Nat.strongRecOn with
  | ind n ih =>
    by_cases h : n < 10
    · have key : ∀ n < 10, n ≠ 0 → ∃ d ds, Nat.toDigits 10 n = d :: ds ∧ d ≠ '0' := by
        intro n h hn
        rw [Nat.toDigits_of_lt_base h]
        refine ⟨_, _, rfl, ?_⟩
        have : ∀ n < 10, n ≠ 0 → n.digitChar ≠ '0' := by decide
        exact this n h hn
      exact key n h hn
    · obtain ⟨d, ds, h1, h2⟩ := ih (n / 10) (by omega) (by omega)
      rw [Nat.toDigits_of_base_le (by decide) (by omega), h1]
      exact ⟨d, _, rfl, h2⟩

theorem skip_nonspace {c : Char} {s : Str} (h : ¬ (c = ' ' ∨ c = '\n' ∨ c = '\t' ∨ c = '\r')) : skip (c :: s) = c :: s := by
  rw [skip, if_neg h]

theorem readValue_nat (n k : Nat) (rest : Str) (hr : ∀ c, rest.head? = some c → c.isDigit = false) :
    readValue (k + 1) (jsonNat n ++ rest) = some (.num n, rest) := by
  unfold jsonNat
  by_cases hn : n = 0
  · subst hn
    show readValue (k + 1) ('0' :: rest) = _
    rw [readValue, skip_nonspace (by decide)]
    rfl
  · obtain ⟨d, ds, h1, h2⟩ := digits_head hn
    have hd : ∀ c ∈ d :: ds, c.isDigit = true := fun c hc => Nat.isDigit_of_mem_toDigits (by decide) (by decide) (h1 ▸ hc)
    have hd0 := hd d (.head _)
    have hv : Nat.ofDigitChars 10 (d :: ds) 0 = n := by rw [← h1]; exact Nat.ofDigitChars_ten_toDigits
    rw [← foldl_digits _ _ hd] at hv
    simp only [List.foldl_cons, Nat.zero_mul, Nat.zero_add] at hv
    have hr := readNum_digits ds (d.toNat - 48) rest (fun c hc => hd c (.tail _ hc)) hr
    rw [hv] at hr
    have hle : '0' ≤ d ∧ d ≤ '9' := by
      simp only [Char.isDigit, Bool.and_eq_true, decide_eq_true_eq] at hd0
      exact hd0
    have hnum : 48 ≤ d.toNat ∧ d.toNat ≤ 57 := ⟨hle.1, hle.2⟩
    have ne : ∀ c : Char, (c.toNat < 48 ∨ 57 < c.toNat) → d ≠ c := by
      rintro c hc rfl
      omega
    have h1' : '1' ≤ d ∧ d ≤ '9' := by
      refine ⟨?_, hle.2⟩
      have : d.toNat ≠ 48 := fun e => h2 (by rw [← Char.ofNat_toNat d, e])
      show 49 ≤ d.toNat
      omega
    rw [h1, List.cons_append, readValue, skip_nonspace]
    · split
      · rename_i e
        exact absurd (List.cons.inj e).1 (ne _ (by decide))
      · rename_i e
        exact absurd (List.cons.inj e).1 (ne _ (by decide))
      · rename_i e
        obtain ⟨rfl, rfl⟩ := List.cons.inj e
        rw [if_neg h2, if_pos h1', hr]
      · rename_i e
        cases e
    · rintro (h | h | h | h) <;> exact ne _ (by decide) h

theorem readValue_str (short : Bool) (s rest : Str) (k : Nat) :
    readValue (k + 1) (jsonStr short s ++ rest) = some (.str s, rest) := by
  simp only [jsonStr, List.append_assoc, List.cons_append, List.nil_append]
  rw [readValue, skip_nonspace (by decide)]
  simp only [readStr_all, Option.map_some]

theorem members_more {short : Bool} {k : Str} {v : Json} {n : Nat} {s1 s2 s3 : Str} {ms : List (Str × Json)}
    (hv : readValue n s1 = some (v, ',' :: s2)) (hm : readMembers n s2 = some (ms, s3)) :
    readMembers (n + 1) (jsonStr short k ++ ':' :: s1) = some ((k, v) :: ms, s3) := by
  simp only [jsonStr, List.append_assoc, List.cons_append, List.nil_append]
  rw [readMembers, skip_nonspace (by decide)]
  simp only [readStr_all, Option.bind_eq_bind, Option.bind_some]
  rw [skip_nonspace (by decide)]
  simp only [hv, Option.bind_some]
  rw [skip_nonspace (by decide)]
  simp only [hm, Option.bind_some]

theorem members_last {short : Bool} {k : Str} {v : Json} {n : Nat} {s1 s2 : Str}
    (hv : readValue n s1 = some (v, '}' :: s2)) :
    readMembers (n + 1) (jsonStr short k ++ ':' :: s1) = some ([(k, v)], s2) := by
  simp only [jsonStr, List.append_assoc, List.cons_append, List.nil_append]
  rw [readMembers, skip_nonspace (by decide)]
  simp only [readStr_all, Option.bind_eq_bind, Option.bind_some]
  rw [skip_nonspace (by decide)]
  simp only [hv, Option.bind_some]
  rw [skip_nonspace (by decide)]
  rfl

theorem readValue_obj {n : Nat} {short : Bool} {k s rest : Str} {ms : List (Str × Json)}
    (h : readMembers n (jsonStr short k ++ s) = some (ms, rest)) :
    readValue (n + 1) ('{' :: (jsonStr short k ++ s)) = some (.obj ms, rest) := by
  rw [readValue, skip_nonspace (by decide)]
  simp only [jsonStr, List.append_assoc, List.cons_append, List.nil_append] at h ⊢
  rw [skip_nonspace (by decide)]
  show (readMembers n _).map _ = _
  rw [h]
  rfl

theorem jsonDoc_eq (short : Bool) (d : SearchDoc) (rest : Str) :
    jsonDoc short d ++ rest = '{' :: (jsonStr false q%"location" ++ ':' :: (jsonStr short d.location ++ ',' ::
      (jsonStr false q%"title" ++ ':' :: (jsonStr short d.title ++ ',' ::
      (jsonStr false q%"text" ++ ':' :: (jsonStr short d.text ++ ',' ::
      (jsonStr false q%"depth" ++ ':' :: (jsonNat d.depth ++ ',' ::
      (jsonStr false q%"section_tag" ++ ':' :: (jsonStr short d.sectionTag ++ '}' :: rest)))))))))) := by
  have h1 : q%"{\"location\":" = '{' :: (jsonStr false q%"location" ++ [':']) := by decide
  have h2 : q%",\"title\":" = ',' :: (jsonStr false q%"title" ++ [':']) := by decide
  have h3 : q%",\"text\":" = ',' :: (jsonStr false q%"text" ++ [':']) := by decide
  have h4 : q%",\"depth\":" = ',' :: (jsonStr false q%"depth" ++ [':']) := by decide
  have h5 : q%",\"section_tag\":" = ',' :: (jsonStr false q%"section_tag" ++ [':']) := by decide
  rw [jsonDoc, h1, h2, h3, h4, h5]
  simp only [List.append_assoc, List.cons_append, List.nil_append]

theorem readValue_doc (short : Bool) (d : SearchDoc) (rest : Str) (k : Nat) :
    readValue (k + 7) (jsonDoc short d ++ rest) = some (d.json, rest) := by
  rw [jsonDoc_eq]
  refine readValue_obj (members_more (readValue_str ..) (members_more (readValue_str ..) (members_more (readValue_str ..)
    (members_more (readValue_nat _ _ _ ?_) (members_last (readValue_str ..))))))
  rintro c ⟨⟩
  decide

theorem readMembers_entries (short : Bool) (rest : Str) (k : Nat) : ∀ (es : SearchIndex), es ≠ [] →
    readMembers (k + es.length + 7) (jsonEntries short es ++ '}' :: rest) = some (es.map fun e => (e.1, e.2.json), rest)
  | [], h => absurd rfl h
  | [e], _ => by
    simp only [jsonEntries, List.append_assoc, List.cons_append, List.nil_append]
    rw [show k + [e].length + 7 = (k + 7) + 1 from by simp only [List.length_cons, List.length_nil]]
    rw [members_last (readValue_doc short e.2 _ k)]
    rfl
  | e :: f :: es, _ => by
    have := readMembers_entries short rest k (f :: es) (by simp)
    rw [jsonEntries]
    · simp only [List.append_assoc, List.cons_append, List.nil_append]
      rw [show k + (e :: f :: es).length + 7 = (k + (f :: es).length + 7) + 1 from by simp only [List.length_cons]; omega]
      rw [members_more (readValue_doc short e.2 _ (k + (f :: es).length)) this]
      rfl
    · simp

theorem entries_length (short : Bool) : ∀ es : SearchIndex, 30 * es.length ≤ (jsonEntries short es).length
  | [] => by simp
  | [e] => by simp [jsonEntries, jsonDoc, jsonStr]; omega
  | e :: f :: es => by
    have := entries_length short (f :: es)
    rw [jsonEntries]
    · simp only [List.length_append, List.length_cons, jsonDoc, jsonStr, List.length_nil] at this ⊢
      omega
    · simp

theorem insertKey_perm (e : Str × SearchDoc) : ∀ es, (insertKey e es).Perm (e :: es)
  | [] => .refl _
  | f :: fs => by
    rw [insertKey]
    split
    · exact .refl _
    · exact ((insertKey_perm e fs).cons f).trans (.swap ..)

theorem sortKeys_perm : ∀ es, (sortKeys es).Perm es
  | [] => .refl _
  | e :: es => (insertKey_perm e _).trans ((sortKeys_perm es).cons e)

theorem read_index (short : Bool) (ix : SearchIndex) :
    Json.read (jsonIndex short ix) = some (.obj ((sortKeys ix).map fun e => (e.1, e.2.json))) := by
  generalize hes : sortKeys ix = es
  have key : ∀ k, readValue (k + es.length + 8) (jsonIndex short ix) = some (.obj (es.map fun e => (e.1, e.2.json)), ['\n']) := by
    intro k
    cases es with
    | nil =>
      simp only [jsonIndex, hes, jsonEntries, List.append_nil, List.cons_append, List.nil_append]
      rw [readValue, skip_nonspace (by decide)]
      simp only []
      rw [skip_nonspace (by decide)]
      rfl
    | cons e es =>
      have := readMembers_entries short ['\n'] k (e :: es) (by simp)
      simp only [jsonIndex, hes, List.cons_append, List.nil_append]
      have hx : ∃ s, jsonEntries short (e :: es) ++ ['}', '\n'] = jsonStr short e.1 ++ s := by
        cases es <;> simp [jsonEntries]
      obtain ⟨s, hs⟩ := hx
      rw [hs] at this ⊢
      exact readValue_obj this
  have hlen : es.length + 2 ≤ (jsonIndex short ix).length := by
    have := entries_length short es
    simp only [jsonIndex, hes, List.length_append, List.length_cons, List.length_nil]
    omega
  have hl : es.length ≠ 0 → 8 + es.length ≤ (jsonIndex short ix).length := by
    have := entries_length short es
    simp only [jsonIndex, hes, List.length_append, List.length_cons, List.length_nil]
    omega
  have hread : readValue ((jsonIndex short ix).length + 1) (jsonIndex short ix) = some (.obj (es.map fun e => (e.1, e.2.json)), ['\n']) := by
    by_cases h0 : es.length = 0
    · obtain rfl := List.length_eq_zero_iff.1 h0
      simp only [jsonIndex, hes, jsonEntries]
      rfl
    · rw [← key ((jsonIndex short ix).length + 1 - es.length - 8)]
      congr 1
      have := hl h0
      omega
  rw [Json.read, hread]
  rfl

/-! ### The order of keys -/

theorem strLe_total : ∀ a b : Str, strLe a b = false → strLe b a = true
  | [], _, h => by simp [strLe] at h
  | _ :: _, [], _ => rfl
  | a :: s, b :: t, h => by
    rw [strLe] at h ⊢
    by_cases e : a = b
    · subst e
      rw [if_pos rfl] at h ⊢
      exact strLe_total s t h
    · rw [if_neg e] at h
      rw [if_neg (Ne.symm e), decide_eq_true_eq]
      have : ¬ a.toNat < b.toNat := of_decide_eq_false h
      have : a.toNat ≠ b.toNat := fun h => e (by rw [← Char.ofNat_toNat a, h, Char.ofNat_toNat])
      omega

theorem strLe_antisymm : ∀ a b : Str, strLe a b = true → strLe b a = true → a = b
  | [], [], _, _ => rfl
  | [], _ :: _, _, h => by simp [strLe] at h
  | _ :: _, [], h, _ => by simp [strLe] at h
  | a :: s, b :: t, h, h' => by
    rw [strLe] at h h'
    by_cases e : a = b
    · subst e
      rw [if_pos rfl] at h h'
      rw [strLe_antisymm s t h h']
    · rw [if_neg e, decide_eq_true_eq] at h
      rw [if_neg (Ne.symm e), decide_eq_true_eq] at h'
      omega

theorem strLe_trans : ∀ a b c : Str, strLe a b = true → strLe b c = true → strLe a c = true
  | [], _, _, _, _ => rfl
  | _ :: _, [], _, h, _ => by simp [strLe] at h
  | _ :: _, _ :: _, [], _, h => by simp [strLe] at h
  | a :: s, b :: t, c :: u, h, h' => by
    rw [strLe] at h h' ⊢
    by_cases e : a = b
    · subst e
      rw [if_pos rfl] at h
      by_cases e : a = c
      · subst e
        rw [if_pos rfl] at h' ⊢
        exact strLe_trans s t u h h'
      · rw [if_neg e] at h' ⊢
        exact h'
    · rw [if_neg e, decide_eq_true_eq] at h
      by_cases e' : b = c
      · subst e'
        rw [if_neg e, decide_eq_true_eq]
        exact h
      · rw [if_neg e', decide_eq_true_eq] at h'
        have : a ≠ c := by rintro rfl; omega
        rw [if_neg this, decide_eq_true_eq]
        omega

/-- In the order of the names. -/
def KeysUp (es : SearchIndex) : Prop := es.Pairwise fun e f => strLe e.1 f.1 = true

theorem insertKey_up {e : Str × SearchDoc} : ∀ {es}, KeysUp es → KeysUp (insertKey e es)
  | [], _ => by simp [insertKey, KeysUp]
  | f :: fs, h => by
    have h' := List.pairwise_cons.1 h
    rw [insertKey]
    split
    · rename_i hle
      refine List.pairwise_cons.2 ⟨fun g hg => ?_, h⟩
      rcases List.mem_cons.1 hg with rfl | hg
      · exact hle
      · exact strLe_trans _ _ _ hle (h'.1 g hg)
    · rename_i hle
      refine List.pairwise_cons.2 ⟨fun g hg => ?_, insertKey_up h'.2⟩
      rcases List.mem_cons.1 ((insertKey_perm e fs).mem_iff.1 hg) with rfl | hg
      · exact strLe_total _ _ (by simpa using hle)
      · exact h'.1 g hg

theorem sortKeys_up : ∀ es, KeysUp (sortKeys es)
  | [] => .nil
  | _ :: es => insertKey_up (sortKeys_up es)

/-- Sorted lists with the same entries are the same, if the names are different. -/
theorem keysUp_unique : ∀ {es fs : SearchIndex}, es.Perm fs → (es.map (·.1)).Nodup → KeysUp es → KeysUp fs → es = fs
  | [], fs, hp, _, _, _ => by rw [List.nil_perm.1 hp]
  | e :: es, [], hp, _, _, _ => by simp at hp
  | e :: es, f :: fs, hp, hn, he, hf => by
    have he' := List.pairwise_cons.1 he
    have hf' := List.pairwise_cons.1 hf
    have : e = f := by
      rcases List.mem_cons.1 (hp.mem_iff.1 (.head es)) with h | h
      · exact h
      · rcases List.mem_cons.1 (hp.mem_iff.2 (.head fs)) with h' | h'
        · exact h'.symm
        · have hk := strLe_antisymm _ _ (he'.1 f h') (hf'.1 e h)
          rw [List.map_cons, List.nodup_cons] at hn
          exact absurd (List.mem_map.2 ⟨f, h', hk.symm⟩) hn.1
    subst this
    rw [keysUp_unique (hp.cons_inv) (by rw [List.map_cons, List.nodup_cons] at hn; exact hn.2) he'.2 hf'.2]

theorem sortKeys_congr {ix ix' : SearchIndex} (hp : ix.Perm ix') (hn : (ix.map (·.1)).Nodup) : sortKeys ix = sortKeys ix' :=
  keysUp_unique ((sortKeys_perm ix).trans (hp.trans (sortKeys_perm ix').symm))
    (((sortKeys_perm ix).map _).nodup_iff.2 hn) (sortKeys_up _) (sortKeys_up _)

/-! ### Looking up a name -/

theorem find_perm {α : Type} [BEq α] [LawfulBEq α] {es fs : List (α × SearchDoc)} (hp : es.Perm fs) (hn : (es.map (·.1)).Nodup) (name : α) :
    es.find? (fun e => e.1 == name) = fs.find? (fun e => e.1 == name) := by
  have uniq : ∀ {l : List (α × SearchDoc)}, (l.map (·.1)).Nodup → ∀ e ∈ l, e.1 = name → l.find? (fun e => e.1 == name) = some e := by
    intro l
    induction l with
    | nil => intro _ e he; cases he
    | cons f l ih =>
      intro hn e he hk
      rw [List.map_cons, List.nodup_cons] at hn
      rcases List.mem_cons.1 he with rfl | he
      · simp [hk]
      · have : f.1 ≠ name := by
          rintro h
          exact hn.1 (List.mem_map.2 ⟨e, he, by rw [hk, h]⟩)
        rw [List.find?_cons_of_neg (by simpa using this)]
        exact ih hn.2 e he hk
  cases h : es.find? (fun e => e.1 == name) with
  | none =>
    rw [List.find?_eq_none] at h
    exact (List.find?_eq_none.2 fun x hx => h x (hp.mem_iff.2 hx)).symm
  | some e =>
    have h1 := List.find?_some h
    have h2 := List.mem_of_find?_eq_some h
    exact (uniq ((hp.map _).nodup_iff.1 hn) e (hp.mem_iff.1 h2) (by simpa using h1)).symm

theorem lookup_find (ix : SearchIndex) (name : Str) : ix.lookup name = (ix.find? fun e => e.1 == name).map (·.2) := by
  induction ix with
  | nil => rfl
  | cons e es ih =>
    obtain ⟨k, d⟩ := e
    by_cases h : k = name
    · subst h
      simp [List.lookup]
    · have : (name == k) = false := by simpa using Ne.symm h
      rw [List.lookup, this, List.find?_cons_of_neg (by simpa using h)]
      exact ih

theorem get_index (ix : SearchIndex) (hn : (ix.map (·.1)).Nodup) (name : Str) :
    (Json.obj ((sortKeys ix).map fun e => (e.1, e.2.json))).get name = (ix.lookup name).map SearchDoc.json := by
  rw [Json.get, List.find?_map, Option.map_map, lookup_find, Option.map_map,
    ← find_perm (sortKeys_perm ix) (((sortKeys_perm ix).map _).nodup_iff.2 hn) name]
  rfl

/-! ### The names of an index are different -/

theorem put_nodup {ix : SearchIndex} (hn : (ix.map (·.1)).Nodup) (name : Str) (d : SearchDoc) : ((ix.put name d).map (·.1)).Nodup := by
  rw [SearchIndex.put, List.map_cons, List.nodup_cons]
  refine ⟨fun h => ?_, ?_⟩
  · obtain ⟨e, he, hk⟩ := List.mem_map.1 h
    have := (List.mem_filter.1 he).2
    simp at this
    exact this hk
  · exact List.Nodup.sublist ((List.filter_sublist ..).map _) hn

theorem indexTags_nodup {h : Heap} {bo : Bool} {ext : Str} {k : Nat} : ∀ {gs : List Tag} {ix ix' : SearchIndex},
    (ix.map (·.1)).Nodup → h.indexTags bo ext k ix gs = .ok ix' → (ix'.map (·.1)).Nodup
  | [], ix, ix', hn, he => by
    rw [Heap.indexTags] at he
    cases he
    exact hn
  | g :: gs, ix, ix', hn, he => by
    rw [Heap.indexTags] at he
    cases hd : h.searchDoc bo ext k g with
    | ok d =>
      rw [hd] at he
      exact indexTags_nodup (put_nodup hn g.name d) he
    | err e => rw [hd] at he; cases he
    | panic => rw [hd] at he; cases he
    | more => rw [hd] at he; cases he

theorem indexLoop_nodup {visit : SearchIndex → Nat → Res SearchIndex}
    (hv : ∀ {ix ix' i}, (ix.map (·.1)).Nodup → visit ix i = .ok ix' → (ix'.map (·.1)).Nodup) :
    ∀ {cs : List Nat} {ix ix' : SearchIndex}, (ix.map (·.1)).Nodup → indexLoop visit ix cs = .ok ix' → (ix'.map (·.1)).Nodup
  | [], ix, ix', hn, he => by
    rw [indexLoop] at he
    cases he
    exact hn
  | c :: cs, ix, ix', hn, he => by
    rw [indexLoop] at he
    cases hd : visit ix c with
    | ok d =>
      rw [hd] at he
      exact indexLoop_nodup hv (hv hn hd) he
    | err e => rw [hd] at he; cases he
    | panic => rw [hd] at he; cases he
    | more => rw [hd] at he; cases he

theorem loadTags_nodup {h : Heap} {bo : Bool} {ext : Str} {k : Nat} : ∀ {n i : Nat} {ix ix' : SearchIndex},
    (ix.map (·.1)).Nodup → h.loadTags bo ext k n ix i = .ok ix' → (ix'.map (·.1)).Nodup
  | 0, i, ix, ix', hn, he => by rw [Heap.loadTags] at he; cases he
  | n + 1, i, ix, ix', hn, he => by
    rw [Heap.loadTags] at he
    cases hd : h.indexTags bo ext k ix (h.get i).tags with
    | ok d =>
      rw [hd] at he
      exact indexLoop_nodup (fun hn he => loadTags_nodup hn he) (indexTags_nodup hn hd) he
    | err e => rw [hd] at he; cases he
    | panic => rw [hd] at he; cases he
    | more => rw [hd] at he; cases he

theorem searchIndex_nodup {h : Heap} {bo : Bool} {ext : Str} {n i : Nat} {ix : SearchIndex}
    (he : h.searchIndex bo ext n i = .ok ix) : (ix.map (·.1)).Nodup := loadTags_nodup (by simp) he

/-! ### The characters of the file -/

theorem jsonHex_inert : ∀ n < 16, inertChar (jsonHex n) = true := by decide

theorem jsonChar_inert (short : Bool) (c : Char) : ∀ x ∈ jsonChar short c, inertChar x = true := by
  intro x hx
  unfold jsonChar at hx
  split at hx
  · rename_i h
    rcases h with rfl | rfl <;> · revert x; decide
  · split at hx
    · revert x; decide
    · split at hx
      · revert x; decide
      · split at hx
        · revert x; decide
        · split at hx
          · revert x; decide
          · split at hx
            · revert x; decide
            · split at hx
              · rename_i h
                have hlt : c.toNat < 128 := by
                  rcases h with h | rfl | rfl | rfl
                  · omega
                  all_goals decide
                simp only [List.mem_cons, List.not_mem_nil, or_false] at hx
                rcases hx with rfl | rfl | rfl | rfl | rfl | rfl
                · decide
                · decide
                · decide
                · decide
                · exact jsonHex_inert _ (by omega)
                · exact jsonHex_inert _ (by omega)
              · split at hx
                · simp only [List.mem_cons, List.not_mem_nil, or_false] at hx
                  rcases hx with rfl | rfl | rfl | rfl | rfl | rfl
                  · decide
                  · decide
                  · decide
                  · decide
                  · decide
                  · exact jsonHex_inert _ (by omega)
                · rename_i h1 h2
                  simp only [List.mem_cons, List.not_mem_nil, or_false] at hx
                  subst hx
                  simp only [not_or] at h1 h2
                  simp [inertChar, h1, h2]
                  omega

theorem jsonStr_inert (short : Bool) (s : Str) : (jsonStr short s).all inertChar = true := by
  rw [List.all_eq_true]
  intro x hx
  simp only [jsonStr, List.mem_append, List.mem_flatMap, List.mem_singleton] at hx
  rcases hx with (rfl | ⟨c, -, hx⟩) | rfl
  · decide
  · exact jsonChar_inert short c x hx
  · decide

theorem jsonNat_inert (n : Nat) : (jsonNat n).all inertChar = true := by
  rw [List.all_eq_true]
  intro x hx
  have := Nat.isDigit_of_mem_toDigits (by decide) (by decide) hx
  simp only [Char.isDigit, Bool.and_eq_true, decide_eq_true_eq] at this
  have hnum : 48 ≤ x.toNat ∧ x.toNat ≤ 57 := this
  have ne : ∀ c : Char, (c.toNat < 48 ∨ 57 < c.toNat) → x ≠ c := by
    rintro c hc rfl
    omega
  simp [inertChar, ne '<' (by decide), ne '>' (by decide), ne '&' (by decide)]
  omega

theorem jsonDoc_inert (short : Bool) (d : SearchDoc) : (jsonDoc short d).all inertChar = true := by
  simp only [jsonDoc, List.all_append, jsonStr_inert, jsonNat_inert, Bool.and_true]
  decide

theorem jsonEntries_inert (short : Bool) : ∀ es, (jsonEntries short es).all inertChar = true
  | [] => rfl
  | [e] => by
    simp only [jsonEntries, List.all_append, jsonStr_inert, jsonDoc_inert]
    decide
  | e :: f :: es => by
    rw [jsonEntries]
    · simp only [List.all_append, jsonStr_inert, jsonDoc_inert, jsonEntries_inert short (f :: es)]
      decide
    · simp

end Booklit
