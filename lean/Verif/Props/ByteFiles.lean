import Verif.ByteFiles

/-! # C34: byte files -/

namespace Htool.Bytes
variable {T : Type*} (c : Codec T)

/-- A type of coefficients with two bytes. -/
def exCodec : Codec (UInt8 × UInt8) := ⟨2, fun x => [x.1, x.2], fun l => (l.getD 0 0, l.getD 1 0), fun _ => rfl, fun _ => rfl⟩

theorem p31 (n : ℕ) (h : n < 2147483648) : n < 2 ^ 31 := by omega

def exFMat : FMat (UInt8 × UInt8) := ⟨2, 3, [(1, 2), (3, 4), (5, 6), (7, 8), (9, 10), (255, 0)], true⟩

/-- **C34** A matrix written to a file and read back, into any matrix, is recovered with its sizes and entries; bytes which follow are ignored. -/
theorem C34_matrix_round_trip (A B : FMat T) (junk : ℕ → UInt8) (rest : List UInt8) (hr : 0 ≤ A.rows) (hr' : A.rows < 2 ^ 31)
    (hc : 0 ≤ A.cols) (hc' : A.cols < 2 ^ 31) (hd : (A.data.length : ℤ) = A.rows * A.cols) :
    bytesToMatrix c (some (matrixToBytes c A ++ rest)) junk B = .returned 0 ⟨A.rows, A.cols, A.data, true⟩ := by
  have hn : (A.rows * A.cols).toNat = A.data.length := by omega
  have hp : ¬ A.rows * A.cols < 0 := by omega
  unfold bytesToMatrix matrixToBytes
  simp only [List.append_assoc]
  rw [read_full _ _ _ _ (intBytes_length _)]
  simp only []
  rw [read_full _ _ _ _ (intBytes_length _)]
  simp only [intOf_intBytes' _ (by omega : (-2 ^ 31 : ℤ) ≤ A.rows) hr', intOf_intBytes' _ (by omega : (-2 ^ 31 : ℤ) ≤ A.cols) hc', if_neg hp, hn]
  rw [read_full _ _ _ _ (encodeAll_length c _)]
  have := decodeAll_encodeAll c A.data []
  rw [List.append_nil] at this
  simp only [this]

example (B : FMat (UInt8 × UInt8)) (junk : ℕ → UInt8) :
    bytesToMatrix exCodec (some (matrixToBytes exCodec exFMat ++ [])) junk B = .returned 0 exFMat :=
  C34_matrix_round_trip exCodec exFMat B junk [] (by decide) (by norm_num [exFMat]) (by decide) (by norm_num [exFMat]) (by decide)

/-- **C34** A vector written to a file and read back, into any vector, is recovered. -/
theorem C34_vector_round_trip (zero : T) (v w : List T) (rest : List UInt8) (h : v.length < 2 ^ 31) :
    bytesToVector c zero (some (vectorToBytes c v ++ rest)) w = .returned 0 v := by
  unfold bytesToVector vectorToBytes
  simp only [List.append_assoc]
  rw [read_full _ _ _ _ (intBytes_length _)]
  simp only [intOf_intBytes' (v.length : ℤ) (by omega) (by omega), if_neg (show ¬ (v.length : ℤ) < 0 by omega), Int.toNat_natCast]
  rw [read_full _ _ _ _ (encodeAll_length c _)]
  have := decodeAll_encodeAll c v []
  rw [List.append_nil] at this
  simp only [this]

example : bytesToVector exCodec (0, 0) (some (vectorToBytes exCodec [(1, 2), (3, 4)] ++ [])) [(7, 7), (8, 8), (9, 9)] = .returned 0 [(1, 2), (3, 4)] :=
  C34_vector_round_trip exCodec _ _ _ _ (p31 _ (by simp))

/-- **C34** Two matrices with the same file are equal. -/
theorem C34_matrix_file_injective (A B : FMat T) (hA : 0 ≤ A.rows ∧ A.rows < 2 ^ 31 ∧ 0 ≤ A.cols ∧ A.cols < 2 ^ 31 ∧ (A.data.length : ℤ) = A.rows * A.cols)
    (hB : 0 ≤ B.rows ∧ B.rows < 2 ^ 31 ∧ 0 ≤ B.cols ∧ B.cols < 2 ^ 31 ∧ (B.data.length : ℤ) = B.rows * B.cols)
    (h : matrixToBytes c A = matrixToBytes c B) : A.rows = B.rows ∧ A.cols = B.cols ∧ A.data = B.data := by
  have h1 := C34_matrix_round_trip c A A (fun _ => 0) [] hA.1 hA.2.1 hA.2.2.1 hA.2.2.2.1 hA.2.2.2.2
  have h2 := C34_matrix_round_trip c B A (fun _ => 0) [] hB.1 hB.2.1 hB.2.2.1 hB.2.2.2.1 hB.2.2.2.2
  rw [h, h2] at h1
  injection h1 with h3 h4
  injection h4 with h5 h6 h7
  exact ⟨h5.symm, h6.symm, h7.symm⟩

/-- **C34, part** A file which cannot be opened is reported and leaves the object unchanged. Missing: files which can be opened but do not hold a matrix
or a vector (see the two theorems below). -/
theorem C34_unreadable_file_partial (zero : T) (junk : ℕ → UInt8) (A : FMat T) (v : List T) :
    bytesToMatrix c none junk A = .returned 1 A ∧ bytesToVector c zero none v = .returned 1 v := ⟨rfl, rfl⟩

/-- **C34, defect** An empty file is accepted (return code 0), although it is not what any matrix writes, and the matrix is replaced by an empty one. -/
theorem C34_empty_file_defect (junk : ℕ → UInt8) (A : FMat T) :
    bytesToMatrix c (some []) junk A = .returned 0 ⟨0, 0, [], true⟩ ∧ ∀ B : FMat T, matrixToBytes c B ≠ [] := by
  refine ⟨?_, fun B h => ?_⟩
  · unfold bytesToMatrix
    simp [IStream.read, intBytes, intOf, decodeAll]
  · have := congrArg List.length h
    simp [matrixToBytes, intBytes] at this

/-- **C34, defect** A truncated file is accepted (return code 0): the sizes are those of the file, and the missing entries are whatever was in memory. -/
theorem C34_truncated_file_defect (A : FMat (UInt8 × UInt8)) (x : UInt8) :
    bytesToMatrix exCodec (some ((matrixToBytes exCodec exFMat).take 17)) (fun _ => x) A =
      .returned 0 ⟨2, 3, [(1, 2), (3, 4), (5, 6), (7, 8), (9, x), (x, x)], true⟩ := by
  have h1 : (matrixToBytes exCodec exFMat).take 17 = [2, 0, 0, 0, 3, 0, 0, 0, 1, 2, 3, 4, 5, 6, 7, 8, 9] := by decide +kernel
  rw [h1]
  have h2 : intOf [2, 0, 0, 0] = 2 := by decide +kernel
  have h3 : intOf [3, 0, 0, 0] = 3 := by decide +kernel
  simp [bytesToMatrix, IStream.read, h2, h3, exCodec, decodeAll, List.range_succ]

/-- **C34, defect** With a negative number of entries in the file, `new` throws after the storage of the matrix has been deleted: the matrix keeps a
dangling pointer, which its destructor deletes again. -/
theorem C34_negative_size_defect (junk : ℕ → UInt8) :
    bytesToMatrix exCodec (some (intBytes (-1) ++ intBytes 3)) junk exFMat = .threw true exFMat := by
  have h1 : intBytes (-1) ++ intBytes 3 = [255, 255, 255, 255, 3, 0, 0, 0] := by decide +kernel
  rw [h1]
  have h2 : intOf [255, 255, 255, 255] = -1 := by decide +kernel
  have h3 : intOf [3, 0, 0, 0] = 3 := by decide +kernel
  simp [bytesToMatrix, IStream.read, h2, h3, exFMat]

/-- **C34, part** What is read, for every file: if it starts with two non-negative `int`s followed by enough bytes, the entries are the ones stored, whatever
the matrix and the memory were. -/
theorem C34_wellformed_file_partial (rows cols : ℤ) (body rest : List UInt8) (hr : 0 ≤ rows) (hr' : rows < 2 ^ 31) (hc : 0 ≤ cols) (hc' : cols < 2 ^ 31)
    (hb : (body.length : ℤ) = rows * cols * c.width) (junk : ℕ → UInt8) (B : FMat T) :
    bytesToMatrix c (some (intBytes rows ++ intBytes cols ++ body ++ rest)) junk B =
      .returned 0 ⟨rows, cols, decodeAll c (rows * cols).toNat body, true⟩ := by
  have hm : 0 ≤ rows * cols := Int.mul_nonneg hr hc
  unfold bytesToMatrix
  simp only [List.append_assoc]
  rw [read_full _ _ _ _ (intBytes_length _)]
  simp only []
  rw [read_full _ _ _ _ (intBytes_length _)]
  simp only [intOf_intBytes' _ (by omega : (-2 ^ 31 : ℤ) ≤ rows) hr', intOf_intBytes' _ (by omega : (-2 ^ 31 : ℤ) ≤ cols) hc',
    if_neg (show ¬ rows * cols < 0 by omega)]
  rw [read_full]
  have : (((rows * cols).toNat * c.width : ℕ) : ℤ) = body.length := by
    rw [hb]; push_cast; rw [Int.toNat_of_nonneg hm]
  exact_mod_cast this.symm

example (junk : ℕ → UInt8) : bytesToMatrix exCodec (some (intBytes 1 ++ intBytes 2 ++ [1, 2, 3, 4] ++ [])) junk exFMat =
    .returned 0 ⟨1, 2, decodeAll exCodec 2 [1, 2, 3, 4], true⟩ :=
  C34_wellformed_file_partial exCodec 1 2 [1, 2, 3, 4] [] (by decide) (by norm_num [exFMat]) (by decide) (by norm_num [exFMat]) (by decide) junk exFMat

end Htool.Bytes
