import Verif.Chunks.Lemmas

/-!
# Chunks: C55, C56, C57
-/

namespace Verif.Chunks

variable {α β : Type*}

/-- A program working on a chunk file pixel by pixel: it keeps the number and the order of the pixels,
the keywords and the place of the file in the directory. -/
def File.map (f : α → β) (x : File α) : File β :=
  { name := x.name, naxis := x.naxis, oldX := x.oldX, oldY := x.oldY, pix := x.pix.map f }

/-- The files written, in terms of the running pixel number. -/
theorem create_eq (pre post : List Char) (naxis : ℕ) {X Y : ℕ} (img : Fin X → Fin Y → α) (d : α) (n : ℕ)
    (h0 : 0 < n) (h1 : n < X * Y) :
    create pre post naxis img n = some ((List.range (ceilDiv (X * Y) n)).map fun i =>
      { name := chunkName pre post (ceilDiv (X * Y) n) i
        naxis := naxis
        oldX := X
        oldY := Y
        pix := (chunkIdx n (X * Y) (ceilDiv (X * Y) n) i).map (pixAt img d) }) := by
  have hk := two_le_ceilDiv (X * Y) n h0 h1
  unfold create
  rw [if_neg (by omega)]
  dsimp only
  rw [Int.toNat_natCast, if_neg (by omega), if_neg (by omega)]
  apply mapM_some
  intro i hi
  rw [List.mem_range] at hi
  rw [select_eq img d]
  · rfl
  · intro t ht
    exact ((mem_chunkIdx n _ _ i t h0 rfl hi).1 ht).1

/-! ## C57 -/

/-- C57 is false for the code, and the exact condition for success: chunks are written exactly when the
chunk size is positive and smaller than the number of pixels. -/
theorem create_isSome_iff (pre post : List Char) (naxis : ℕ) {X Y : ℕ} (img : Fin X → Fin Y → α) (N : ℤ) :
    (create pre post naxis img N).isSome ↔ 0 < N ∧ N < X * Y := by
  constructor
  · intro h
    unfold create at h
    split_ifs at h with h0
    · simp at h
    · dsimp only at h
      split_ifs at h with h1 h2
      · simp at h
      · simp at h
      · refine ⟨by omega, ?_⟩
        by_contra hc
        have hle : X * Y ≤ N.toNat := by
          have : ((X * Y : ℕ) : ℤ) ≤ N := by push_cast; omega
          omega
        unfold ceilDiv at h1 h2
        have hlt : (X * Y + N.toNat - 1) / N.toNat < 2 := by
          rw [Nat.div_lt_iff_lt_mul (by omega)]
          omega
        generalize (X * Y + N.toNat - 1) / N.toNat = q at h1 h2 hlt
        omega
  · rintro ⟨h0, h1⟩
    obtain ⟨n, rfl⟩ := Int.eq_ofNat_of_zero_le h0.le
    have hn : 0 < n := by exact_mod_cast h0
    have hlt : n < X * Y := by exact_mod_cast h1
    have hXY := index_pixel (lt_trans hn hlt)
    rw [create_eq pre post naxis img (img ⟨_, hXY.1⟩ ⟨_, hXY.2⟩) n hn hlt]
    rfl

/-- C57 is false for the code: for every image which fits in one chunk, the program raises. -/
theorem single_chunk_raises (pre post : List Char) (naxis : ℕ) {X Y : ℕ} (img : Fin X → Fin Y → α) (N : ℤ)
    (h : (X * Y : ℤ) ≤ N) : create pre post naxis img N = none := by
  have := (create_isSome_iff pre post naxis img N).not.2 (by omega)
  simpa using this

/-! ## C56 -/

/-- C56. The names of any number of chunks, compared as strings, are in the order of the chunk
numbers, and they have the same length. -/
theorem names_sort_numerically (pre post : List Char) (k i j : ℕ) (hi : i < k) (hj : j < k) :
    (chunkName pre post k i < chunkName pre post k j ↔ i < j) ∧
      (chunkName pre post k i).length = (chunkName pre post k j).length := by
  constructor
  · constructor
    · intro h
      rcases Nat.lt_trichotomy i j with h1 | rfl | h1
      · exact h1
      · exact absurd h (lt_irrefl (chunkName pre post k i))
      · exact absurd (lt_trans h (chunkName_lt pre post k j i h1 hi)) (lt_irrefl (chunkName pre post k i))
    · exact fun h => chunkName_lt pre post k i j h hj
  · have hk : k < 10 ^ digits k := Nat.lt_pow_succ_log_self (by norm_num) k
    have hd : 0 < digits k := Nat.succ_pos _
    unfold chunkName
    rw [fmt_eq_pad _ _ hd (by omega), fmt_eq_pad _ _ hd (by omega)]
    simp [length_pad]

/-- Sorting the files found in any order gives them in chunk order. -/
theorem sort_files (pre post : List Char) (k : ℕ) (F : ℕ → File β)
    (hF : ∀ i, (F i).name = chunkName pre post k i) (L : List (File β))
    (hL : L.Perm ((List.range k).map F)) : sortFiles L = (List.range k).map F := by
  classical
  let r : File β → File β → Prop := fun a b => a.name ≤ b.name
  have : Std.Total r := ⟨fun a b => le_total a.name b.name⟩
  have : IsTrans (File β) r := ⟨fun a b c (h1 : a.name ≤ b.name) (h2 : b.name ≤ c.name) => le_trans h1 h2⟩
  have hp : (sortFiles L).Perm ((List.range k).map F) := (List.perm_insertionSort _ L).trans hL
  have hs : (sortFiles L).Pairwise r := List.pairwise_insertionSort r L
  have hs' : ((List.range k).map F).Pairwise r := by
    rw [List.pairwise_map]
    refine List.Pairwise.imp_of_mem ?_ (List.pairwise_lt_range (n := k))
    intro a b ha hb hab
    show (F a).name ≤ (F b).name
    rw [hF, hF]
    exact (chunkName_lt pre post k a b hab (List.mem_range.1 hb)).le
  refine List.Perm.eq_of_pairwise ?_ hs hs' hp
  intro a b ha hb h1 h2
  have ha' := hp.subset ha
  obtain ⟨i, hi, rfl⟩ := List.mem_map.1 ha'
  obtain ⟨j, hj, rfl⟩ := List.mem_map.1 hb
  rw [List.mem_range] at hi hj
  have he : (F i).name = (F j).name := le_antisymm h1 h2
  rw [hF, hF] at he
  rcases Nat.lt_trichotomy i j with h | rfl | h
  · exact absurd he (chunkName_lt pre post k i j h hj).ne
  · rfl
  · exact absurd he (chunkName_lt pre post k j i h hi).ne'

/-! ## C55 -/

theorem assemble_fold (n npix k Y : ℕ) (hn : 0 < n) (hk : k = ceilDiv npix n) (g : ℕ → β)
    (F : ℕ → File β) (hF : ∀ i < k, (F i).pix = (chunkIdx n npix k i).map g) (l : List ℕ)
    (hl : ∀ i ∈ l, i < k) (im : Image β) :
    ∃ im', l.foldlM (fun im i => (((List.range k).map F)[i]?).bind fun f =>
        writeChunk Y im (chunkIdx n npix k i) f.pix) im = some im' ∧
      ∀ x y, y < Y → im' x y = if ∃ i ∈ l, x * Y + y < npix ∧ (x * Y + y) / n = i
        then some (g (x * Y + y)) else im x y := by
  induction l generalizing im with
  | nil => exact ⟨im, rfl, by simp⟩
  | cons i l ih =>
    have hi := hl i List.mem_cons_self
    obtain ⟨im1, h1, h2⟩ := writeChunk_eq Y g (chunkIdx n npix k i) im
    obtain ⟨im2, h3, h4⟩ := ih (fun i hi => hl i (List.mem_cons_of_mem _ hi)) im1
    refine ⟨im2, ?_, ?_⟩
    · rw [List.foldlM_cons]
      have : ((List.range k).map F)[i]? = some (F i) := by simp [hi]
      rw [this]
      simp only [Option.bind_some]
      rw [hF i hi, h1]
      exact h3
    · intro x y hy
      rw [h4 x y hy, h2 x y hy]
      simp only [mem_chunkIdx n npix k i _ hn hk hi]
      by_cases ha : ∃ i ∈ l, x * Y + y < npix ∧ (x * Y + y) / n = i
      · rw [if_pos ha, if_pos]
        obtain ⟨i', h, h'⟩ := ha
        exact ⟨i', List.mem_cons_of_mem _ h, h'⟩
      · rw [if_neg ha]
        by_cases hb : x * Y + y < npix ∧ (x * Y + y) / n = i
        · rw [if_pos hb, if_pos ⟨i, List.mem_cons_self, hb⟩]
        · rw [if_neg hb, if_neg]
          rintro ⟨i', h, h'⟩
          rcases List.mem_cons.1 h with rfl | h
          · exact hb h'
          · exact ha ⟨i', h, h'⟩

theorem pixAt_index {X Y : ℕ} (img : Fin X → Fin Y → α) (d : α) (x : Fin X) (y : Fin Y) :
    pixAt img d ((x : ℕ) * Y + y) = img x y := by
  obtain ⟨-, h2, h3⟩ := pixel_index x.isLt y.isLt
  unfold pixAt
  rw [dif_pos ⟨by rw [h2]; exact x.isLt, by rw [h3]; exact y.isLt⟩]
  have e1 : (⟨((x : ℕ) * Y + y) / Y, by rw [h2]; exact x.isLt⟩ : Fin X) = x := Fin.ext h2
  have e2 : (⟨((x : ℕ) * Y + y) % Y, by rw [h3]; exact y.isLt⟩ : Fin Y) = y := Fin.ext h3
  rw [e1, e2]

/-- C55. Cutting an image into more than one chunk, running a pixel-by-pixel program `f` on every
chunk, and assembling the chunks found in the directory in any order, gives the image with `f` applied
to every pixel; for `f = id` it is the original image. -/
theorem chunk_round_trip (pre post : List Char) (naxis : ℕ) (hax : naxis = 2 ∨ naxis = 3 ∨ naxis = 4)
    {X Y : ℕ} (img : Fin X → Fin Y → α) (N : ℤ) (h0 : 0 < N) (h1 : N < X * Y) (f : α → β) :
    ∃ files, create pre post naxis img N = some files ∧
      ∀ L : List (File β), L.Perm (files.map (File.map f)) →
        ∃ im, assemble L = some im ∧ ∀ (x : Fin X) (y : Fin Y), im x y = some (f (img x y)) := by
  obtain ⟨n, rfl⟩ := Int.eq_ofNat_of_zero_le h0.le
  have hn : 0 < n := by exact_mod_cast h0
  have hlt : n < X * Y := by exact_mod_cast h1
  have hXY := index_pixel (lt_trans hn hlt)
  let d := img ⟨_, hXY.1⟩ ⟨_, hXY.2⟩
  set k := ceilDiv (X * Y) n with hk
  have hk2 : 2 ≤ k := two_le_ceilDiv (X * Y) n hn hlt
  refine ⟨_, create_eq pre post naxis img d n hn hlt, fun L hL => ?_⟩
  let F : ℕ → File β := fun i =>
    { name := chunkName pre post k i
      naxis := naxis
      oldX := X
      oldY := Y
      pix := (chunkIdx n (X * Y) k i).map fun t => f (pixAt img d t) }
  have hLF : L.Perm ((List.range k).map F) := by
    rw [List.map_map] at hL
    refine hL.trans (List.Perm.of_eq ?_)
    apply List.map_congr_left
    intro i _
    simp only [Function.comp, File.map, F, List.map_map]
    rfl
  have hsort := sort_files pre post k F (fun _ => rfl) L hLF
  have hlen : (F 0).pix.length = n := by
    simp only [F, List.length_map, chunkIdx]
    rw [if_pos (by omega)]
    simp [fullIdx]
  obtain ⟨rest, hrest⟩ : ∃ rest, (List.range k).map F = F 0 :: rest := by
    obtain ⟨k', hk'⟩ : ∃ k', k = k' + 1 := ⟨k - 1, by omega⟩
    rw [hk', List.range_succ_eq_map, List.map_cons]
    exact ⟨_, rfl⟩
  obtain ⟨im, him, hval⟩ := assemble_fold n (X * Y) k Y hn hk (fun t => f (pixAt img d t)) F
    (fun i _ => rfl) (List.range k) (fun i hi => List.mem_range.1 hi) (fun _ _ => none)
  refine ⟨im, ?_, ?_⟩
  · unfold assemble
    rw [hsort, hrest]
    dsimp only
    rw [hlen, if_neg (by omega), if_neg (by simp only [F]; omega), ← hrest]
    have hX : (F 0).oldX = X := rfl
    have hY : (F 0).oldY = Y := rfl
    rw [hX, hY, ← hk, if_neg (by simp), if_neg (by omega)]
    exact him
  · intro x y
    rw [hval x y y.isLt, if_pos, pixAt_index]
    have hp := pixel_index x.isLt y.isLt
    refine ⟨((x : ℕ) * Y + y) / n, List.mem_range.2 ?_, hp.1, rfl⟩
    have := ceilDiv_spec (X * Y) n hn (by rw [← hk]; omega)
    rw [← hk] at this
    rw [Nat.div_lt_iff_lt_mul hn]
    omega

/-- C55, concrete case: a 3 × 2 image in chunks of 4 pixels, as `create_chunks` followed by
`assemble_chunks` with the files found in the wrong order. -/
example (img : Fin 3 → Fin 2 → ℕ) (pre post : List Char) :
    ∃ a b, create pre post 3 img 4 = some [a, b] ∧ a.pix.length = 4 ∧ b.pix.length = 2 ∧
      ∃ im, assemble [b, a] = some im ∧ ∀ (x : Fin 3) (y : Fin 2), im x y = some (img x y) := by
  obtain ⟨files, h, hr⟩ := chunk_round_trip pre post 3 (by simp) img 4 (by norm_num) (by norm_num) id
  have h2 := create_eq pre post 3 img (img 0 0) 4 (by norm_num) (by norm_num)
  have hc : ceilDiv (3 * 2) 4 = 2 := rfl
  rw [hc] at h2
  have hl : List.range 2 = [0, 1] := rfl
  rw [hl, List.map_cons, List.map_cons, List.map_nil] at h2
  have he : files = _ := Option.some.inj (h.symm.trans h2)
  refine ⟨_, _, h2, rfl, rfl, ?_⟩
  apply hr
  rw [he, List.map_cons, List.map_cons, List.map_nil]
  simp only [File.map, List.map_id]
  exact List.Perm.swap _ _ _

/-- C55, error branch: if any chunk is missing, assembling raises instead of writing an incomplete
image. -/
theorem missing_chunk_raises (pre post : List Char) (naxis : ℕ) {X Y : ℕ} (img : Fin X → Fin Y → α)
    (N : ℤ) (f : α → β) (files : List (File α)) (h : create pre post naxis img N = some files)
    (S L : List (File β)) (hS : S.Sublist (files.map (File.map f))) (hlt : S.length < files.length)
    (hL : L.Perm S) : assemble L = none := by
  have hs : (create pre post naxis img N).isSome := by rw [h]; rfl
  obtain ⟨h0, h1⟩ := (create_isSome_iff pre post naxis img N).1 hs
  obtain ⟨n, rfl⟩ := Int.eq_ofNat_of_zero_le h0.le
  have hn : 0 < n := by exact_mod_cast h0
  have hltn : n < X * Y := by exact_mod_cast h1
  have hXY := index_pixel (lt_trans hn hltn)
  let d := img ⟨_, hXY.1⟩ ⟨_, hXY.2⟩
  have hk2 := two_le_ceilDiv (X * Y) n hn hltn
  have hc := create_eq pre post naxis img d n hn hltn
  rw [h] at hc
  set k := ceilDiv (X * Y) n with hk
  let F : ℕ → File β := fun i =>
    { name := chunkName pre post k i
      naxis := naxis
      oldX := X
      oldY := Y
      pix := (chunkIdx n (X * Y) k i).map fun t => f (pixAt img d t) }
  have hFe : files.map (File.map f) = (List.range k).map F := by
    rw [Option.some.inj hc, List.map_map]
    apply List.map_congr_left
    intro i _
    simp only [Function.comp, File.map, F, List.map_map]
    rfl
  have hlen : files.length = k := by
    have := congrArg List.length hFe
    simpa using this
  rw [hFe] at hS
  have hnames : ∀ i j, i < k → j < k → (F i).name ≤ (F j).name → i ≤ j := by
    intro i j hi hj hle
    by_contra hc
    exact absurd hle (not_le.2 (chunkName_lt pre post k j i (by omega) hi))
  have hnd : ((List.range k).map F).Nodup := by
    rw [List.nodup_map_iff_inj_on List.nodup_range]
    intro i hi j hj he
    rw [List.mem_range] at hi hj
    exact le_antisymm (hnames i j hi hj (by rw [he])) (hnames j i hj hi (by rw [he]))
  have hLnd : (sortFiles L).Nodup :=
    (List.perm_insertionSort _ L).nodup_iff.2 (hL.nodup_iff.2 (hnd.sublist hS))
  have hmem : ∀ a ∈ sortFiles L, ∃ i < k, a = F i := by
    intro a ha
    have : a ∈ (List.range k).map F := hS.subset (hL.subset ((List.perm_insertionSort _ L).subset ha))
    obtain ⟨i, hi, rfl⟩ := List.mem_map.1 this
    exact ⟨i, List.mem_range.1 hi, rfl⟩
  have hslen : (sortFiles L).length < k := by
    have : (sortFiles L).length = S.length := by
      unfold sortFiles
      rw [List.length_insertionSort, hL.length_eq]
    omega
  have hsorted : (sortFiles L).Pairwise fun a b => a.name ≤ b.name := by
    have : Std.Total fun a b : File β => a.name ≤ b.name := ⟨fun a b => le_total a.name b.name⟩
    have : IsTrans (File β) fun a b => a.name ≤ b.name :=
      ⟨fun a b c (h1 : a.name ≤ b.name) (h2 : b.name ≤ c.name) => le_trans h1 h2⟩
    exact List.pairwise_insertionSort _ L
  unfold assemble
  generalize sortFiles L = T at hLnd hmem hslen hsorted
  cases T with
  | nil => rfl
  | cons a T =>
    obtain ⟨i, hi, rfl⟩ := hmem a List.mem_cons_self
    dsimp only
    split_ifs with g1 g2 g3 g4
    · rfl
    · rfl
    · rfl
    · rfl
    · exfalso
      have hX : (F i).oldX = X := rfl
      have hY : (F i).oldY = Y := rfl
      rw [hX, hY] at g3 g4
      push Not at g3
      by_cases hlast : i + 1 < k
      · have : (F i).pix.length = n := by
          simp only [F, List.length_map, chunkIdx]
          rw [if_pos hlast]
          simp [fullIdx]
        rw [this, ← hk] at g3
        omega
      · have hT : T = [] := by
          cases T with
          | nil => rfl
          | cons b T =>
            exfalso
            obtain ⟨j, hj, rfl⟩ := hmem b (by simp)
            have h5 := hnames i j hi hj ((List.pairwise_cons.1 hsorted).1 (F j) (by simp))
            have : i = j := by omega
            subst this
            simp at hLnd
        rw [hT] at g3
        have h6 : (F i).pix.length ≤ n := by
          simp only [F, List.length_map]
          exact length_chunkIdx_le _ _ _ _
        have := two_le_ceilDiv (X * Y) (F i).pix.length (Nat.pos_of_ne_zero g1) (by omega)
        rw [← g3] at this
        simp at this

theorem range_filter (m npix : ℕ) (h : npix ≤ m) : (List.range m).filter (· < npix) = List.range npix := by
  obtain ⟨r, rfl⟩ : ∃ r, m = npix + r := ⟨m - npix, by omega⟩
  rw [List.range_add, List.filter_append, List.filter_eq_self.2, List.filter_eq_nil_iff.2, List.append_nil]
  · intro a ha
    obtain ⟨b, -, rfl⟩ := List.mem_map.1 ha
    simp
  · intro a ha
    simpa using ha

theorem flatMap_fullIdx (n i : ℕ) : (List.range i).flatMap (fullIdx n) = List.range (i * n) := by
  induction i with
  | zero => simp
  | succ i ih =>
    rw [List.range_succ, List.flatMap_append, ih, add_mul, one_mul, List.range_add]
    simp [fullIdx, add_comm]

/-- C55. The pixels of the chunks, one chunk after the other, are the pixels of the image one after the
other: nothing is lost, doubled or reordered. -/
theorem chunk_pixels (pre post : List Char) (naxis : ℕ) {X Y : ℕ} (img : Fin X → Fin Y → α) (N : ℤ)
    (files : List (File α)) (h : create pre post naxis img N = some files) :
    files.flatMap File.pix = (List.finRange X).flatMap fun x => (List.finRange Y).map fun y => img x y := by
  have hs : (create pre post naxis img N).isSome := by rw [h]; rfl
  obtain ⟨h0, h1⟩ := (create_isSome_iff pre post naxis img N).1 hs
  obtain ⟨n, rfl⟩ := Int.eq_ofNat_of_zero_le h0.le
  have hn : 0 < n := by exact_mod_cast h0
  have hlt : n < X * Y := by exact_mod_cast h1
  have hXY := index_pixel (lt_trans hn hlt)
  let d := img ⟨_, hXY.1⟩ ⟨_, hXY.2⟩
  have hk2 := two_le_ceilDiv (X * Y) n hn hlt
  have hsp := ceilDiv_spec (X * Y) n hn (by omega)
  have hc := create_eq pre post naxis img d n hn hlt
  rw [h] at hc
  rw [Option.some.inj hc, List.flatMap_map]
  set k := ceilDiv (X * Y) n with hk
  have h2 : (List.range k).flatMap (chunkIdx n (X * Y) k) = List.range (X * Y) := by
    obtain ⟨k', hk'⟩ : ∃ k', k = k' + 1 := ⟨k - 1, by omega⟩
    rw [← range_filter (k * n) (X * Y) hsp.2, hk', List.range_succ, List.flatMap_append, add_mul, one_mul,
      List.range_add, List.filter_append]
    congr 1
    · rw [← flatMap_fullIdx n k', List.filter_eq_self.2]
      · rw [List.flatMap_congr]
        intro i hi
        unfold chunkIdx
        rw [if_pos (by have := List.mem_range.1 hi; omega)]
      · intro a ha
        rw [flatMap_fullIdx] at ha
        have := List.mem_range.1 ha
        rw [hk', Nat.add_sub_cancel] at hsp
        simp
        omega
    · simp only [List.flatMap_cons, List.flatMap_nil, List.append_nil]
      unfold chunkIdx
      rw [if_neg (by omega)]
      simp [fullIdx, add_comm]
  have h3 : (List.range k).flatMap (fun i => (chunkIdx n (X * Y) k i).map (pixAt img d)) =
      (List.range (X * Y)).map (pixAt img d) := by
    rw [← h2, List.map_flatMap]
  rw [h3]
  clear h3 h2 hc hsp hk2 h h1 hs
  have key : ∀ m, m ≤ X → (List.range (m * Y)).map (pixAt img d) =
      (List.range m).flatMap fun x => (List.finRange Y).map fun y : Fin Y => pixAt img d (x * Y + (y : ℕ)) := by
    intro m
    induction m with
    | zero => simp
    | succ m ih =>
      intro hm
      rw [add_mul, one_mul, List.range_add, List.map_append, ih (by omega), List.range_succ,
        List.flatMap_append]
      congr 1
      simp only [List.flatMap_cons, List.flatMap_nil, List.append_nil, List.map_map]
      rw [← List.map_coe_finRange_eq_range, List.map_map]
      rfl
  rw [key X le_rfl, ← List.map_coe_finRange_eq_range, List.flatMap_map]
  apply List.flatMap_congr
  intro x _
  apply List.map_congr_left
  intro y _
  exact pixAt_index img d x y

end Verif.Chunks
