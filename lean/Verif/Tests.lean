import Verif.Model.Builders
import Verif.Model.EncodeNode
import Verif.Model.Block

/-!
# The tests of the package, replayed on the model

These say nothing beyond themselves and no claim rests on them. They check the model
against what the tests of the package expect of the code: /repo/git_test.go,
/repo/unmarshal_test.go and the objects in /repo/testdata.tar.gz, decompressed.
Generated by tools/tests.py.
-/

namespace Verif.Tests

open Verif

/-- Parsing and encoding gives the same bytes again. -/
def again (b : Bytes) : Bool :=
  match parseObjectFromBuffer b with
  | .ok o => match encodeBytes (.own o.own) with | .ok c => c == b | _ => false
  | _ => false

/-- /repo/testdata.tar.gz: tree 0a1690e0640a212aafed1824eb208ffddab1789b. -/
example : again
    [116, 114, 101, 101, 32, 51, 48, 0, 49, 48, 48, 54, 52, 52, 32, 102, 50, 0, 159, 53, 138, 74, 221, 239, 202,
    178, 148, 184, 62, 66, 130, 191, 239, 31, 150, 37, 162, 73] = true := by
  decide +kernel

/-- /repo/testdata.tar.gz: tree 0faccf822badf55f15fb0c3f4122fa13798f769e. -/
example : again
    [116, 114, 101, 101, 32, 49, 50, 51, 0, 52, 48, 48, 48, 48, 32, 100, 105, 114, 0, 127, 253, 20, 1, 245, 153,
    199, 3, 100, 237, 164, 49, 210, 147, 99, 224, 55, 178, 201, 44, 52, 48, 48, 48, 48, 32, 100, 105, 114, 50, 0,
    90, 244, 220, 24, 137, 158, 138, 201, 89, 4, 234, 242, 180, 171, 241, 162, 202, 94, 21, 7, 49, 48, 48, 54,
    52, 52, 32, 102, 54, 0, 147, 59, 117, 131, 183, 118, 123, 7, 234, 76, 242, 66, 193, 190, 41, 22, 46, 184,
    187, 133, 49, 48, 48, 54, 52, 52, 32, 102, 105, 108, 101, 0, 128, 41, 146, 196, 34, 13, 225, 154, 144, 118,
    127, 48, 0, 167, 154, 49, 185, 141, 13, 247] = true := by
  decide +kernel

/-- /repo/testdata.tar.gz: blob 19f0805d8de36b6442e8c573074112ba72ad6780. -/
example : again
    [98, 108, 111, 98, 32, 55, 0, 113, 119, 101, 114, 116, 121, 10] = true := by
  decide +kernel

/-- /repo/testdata.tar.gz: commit 42fd8d7404f5127314e248b2cbbe1423f12faeb9. -/
example : again
    [99, 111, 109, 109, 105, 116, 32, 49, 54, 53, 0, 116, 114, 101, 101, 32, 102, 97, 53, 57, 98, 57, 51, 99, 54,
    99, 101, 57, 100, 98, 56, 50, 99, 101, 53, 55, 100, 101, 57, 48, 52, 54, 101, 98, 55, 51, 56, 101, 57, 102,
    51, 99, 48, 57, 53, 50, 10, 97, 117, 116, 104, 111, 114, 32, 74, 111, 104, 110, 32, 68, 111, 101, 32, 60,
    106, 111, 104, 110, 100, 111, 101, 64, 101, 120, 97, 109, 112, 108, 101, 46, 99, 111, 109, 62, 32, 49, 53,
    50, 53, 49, 50, 53, 57, 57, 52, 32, 43, 48, 50, 48, 48, 10, 99, 111, 109, 109, 105, 116, 116, 101, 114, 32,
    74, 111, 104, 110, 32, 68, 111, 101, 32, 60, 106, 111, 104, 110, 100, 111, 101, 64, 101, 120, 97, 109, 112,
    108, 101, 46, 99, 111, 109, 62, 32, 49, 53, 50, 53, 49, 50, 53, 57, 57, 52, 32, 43, 48, 50, 48, 48, 10, 10,
    73, 110, 105, 116, 10] = true := by
  decide +kernel

/-- /repo/testdata.tar.gz: commit 4b271beec86978454072b632f382c6ccb3938a45. -/
example : again
    [99, 111, 109, 109, 105, 116, 32, 50, 56, 57, 0, 116, 114, 101, 101, 32, 102, 53, 50, 50, 55, 99, 98, 100,
    51, 50, 57, 55, 51, 101, 99, 57, 48, 102, 52, 56, 102, 50, 53, 52, 55, 101, 54, 102, 101, 49, 54, 99, 56, 48,
    98, 57, 50, 98, 100, 53, 10, 112, 97, 114, 101, 110, 116, 32, 52, 50, 102, 100, 56, 100, 55, 52, 48, 52, 102,
    53, 49, 50, 55, 51, 49, 52, 101, 50, 52, 56, 98, 50, 99, 98, 98, 101, 49, 52, 50, 51, 102, 49, 50, 102, 97,
    101, 98, 57, 10, 97, 117, 116, 104, 111, 114, 32, 74, 111, 104, 110, 32, 68, 111, 101, 32, 38, 32, 74, 111,
    104, 110, 32, 79, 116, 104, 101, 114, 32, 60, 106, 111, 104, 110, 100, 111, 101, 64, 101, 120, 97, 109, 112,
    108, 101, 46, 99, 111, 109, 44, 32, 106, 111, 104, 110, 111, 116, 104, 101, 114, 64, 101, 120, 97, 109, 112,
    108, 101, 46, 99, 111, 109, 62, 32, 49, 53, 50, 53, 49, 50, 53, 57, 57, 52, 32, 43, 48, 50, 48, 48, 10, 99,
    111, 109, 109, 105, 116, 116, 101, 114, 32, 74, 111, 104, 110, 32, 68, 111, 101, 32, 38, 32, 74, 111, 104,
    110, 32, 79, 116, 104, 101, 114, 32, 60, 106, 111, 104, 110, 100, 111, 101, 64, 101, 120, 97, 109, 112, 108,
    101, 46, 99, 111, 109, 44, 32, 106, 111, 104, 110, 111, 116, 104, 101, 114, 64, 101, 120, 97, 109, 112, 108,
    101, 46, 99, 111, 109, 62, 32, 49, 53, 50, 53, 49, 50, 53, 57, 57, 52, 32, 43, 48, 50, 48, 48, 10, 10, 67,
    111, 109, 109, 105, 116, 32, 50, 10] = true := by
  decide +kernel

/-- /repo/testdata.tar.gz: commit 4d5e7ac145aaf440600dd06a97e8cc65f8acd4dc. -/
example : again
    [99, 111, 109, 109, 105, 116, 32, 53, 51, 52, 0, 116, 114, 101, 101, 32, 102, 102, 101, 102, 53, 51, 53, 48,
    98, 54, 102, 56, 55, 54, 50, 99, 99, 54, 50, 55, 50, 98, 48, 50, 53, 53, 101, 57, 54, 56, 102, 53, 48, 98,
    54, 53, 55, 55, 101, 100, 10, 112, 97, 114, 101, 110, 116, 32, 52, 98, 50, 55, 49, 98, 101, 101, 99, 56, 54,
    57, 55, 56, 52, 53, 52, 48, 55, 50, 98, 54, 51, 50, 102, 51, 56, 50, 99, 54, 99, 99, 98, 51, 57, 51, 56, 97,
    52, 53, 10, 112, 97, 114, 101, 110, 116, 32, 56, 56, 97, 55, 50, 57, 52, 55, 100, 56, 98, 52, 102, 48, 97,
    98, 55, 49, 56, 53, 51, 56, 57, 101, 102, 99, 100, 100, 53, 100, 97, 99, 101, 52, 54, 52, 51, 101, 48, 52,
    10, 97, 117, 116, 104, 111, 114, 32, 74, 111, 104, 110, 32, 68, 111, 101, 32, 60, 106, 111, 104, 110, 100,
    111, 101, 64, 101, 120, 97, 109, 112, 108, 101, 46, 99, 111, 109, 62, 32, 49, 53, 50, 53, 49, 50, 53, 57, 57,
    52, 32, 43, 48, 50, 48, 48, 10, 99, 111, 109, 109, 105, 116, 116, 101, 114, 32, 74, 111, 104, 110, 32, 68,
    111, 101, 32, 60, 106, 111, 104, 110, 100, 111, 101, 64, 101, 120, 97, 109, 112, 108, 101, 46, 99, 111, 109,
    62, 32, 49, 53, 50, 53, 49, 50, 53, 57, 57, 52, 32, 43, 48, 50, 48, 48, 10, 109, 101, 114, 103, 101, 116, 97,
    103, 32, 111, 98, 106, 101, 99, 116, 32, 56, 56, 97, 55, 50, 57, 52, 55, 100, 56, 98, 52, 102, 48, 97, 98,
    55, 49, 56, 53, 51, 56, 57, 101, 102, 99, 100, 100, 53, 100, 97, 99, 101, 52, 54, 52, 51, 101, 48, 52, 10,
    32, 116, 121, 112, 101, 32, 99, 111, 109, 109, 105, 116, 10, 32, 116, 97, 103, 32, 118, 49, 115, 105, 103,
    10, 32, 116, 97, 103, 103, 101, 114, 32, 74, 111, 104, 110, 32, 68, 111, 101, 32, 60, 106, 111, 104, 110,
    100, 111, 101, 64, 101, 120, 97, 109, 112, 108, 101, 46, 99, 111, 109, 62, 32, 49, 53, 50, 53, 49, 50, 53,
    57, 57, 52, 32, 43, 48, 50, 48, 48, 10, 32, 10, 32, 83, 111, 109, 101, 32, 115, 105, 103, 110, 101, 100, 32,
    118, 101, 114, 115, 105, 111, 110, 10, 32, 45, 45, 45, 45, 45, 66, 69, 71, 73, 78, 32, 80, 71, 80, 32, 83,
    73, 71, 78, 65, 84, 85, 82, 69, 45, 45, 45, 45, 45, 10, 32, 78, 111, 116, 82, 101, 97, 108, 108, 121, 65, 66,
    97, 115, 101, 54, 52, 83, 105, 103, 110, 97, 116, 117, 114, 101, 10, 32, 66, 117, 116, 73, 116, 115, 71, 111,
    111, 100, 69, 110, 111, 117, 103, 104, 10, 32, 45, 45, 45, 45, 45, 69, 78, 68, 32, 80, 71, 80, 32, 83, 73,
    71, 78, 65, 84, 85, 82, 69, 45, 45, 45, 45, 45, 10, 10, 77, 101, 114, 103, 101, 32, 116, 97, 103, 32, 118,
    49, 10] = true := by
  decide +kernel

/-- /repo/testdata.tar.gz: tree 5af4dc18899e8ac95904eaf2b4abf1a2ca5e1507. -/
example : again
    [116, 114, 101, 101, 32, 51, 48, 0, 49, 48, 48, 54, 52, 52, 32, 102, 51, 0, 252, 128, 218, 242, 27, 180, 132,
    207, 212, 42, 212, 237, 77, 23, 218, 72, 99, 129, 153, 234] = true := by
  decide +kernel

/-- /repo/testdata.tar.gz: commit 70a3540bd51658ab564806785d5516a4e89b6450. -/
example : again
    [99, 111, 109, 109, 105, 116, 32, 50, 51, 54, 0, 116, 114, 101, 101, 32, 48, 102, 97, 99, 99, 102, 56, 50,
    50, 98, 97, 100, 102, 53, 53, 102, 49, 53, 102, 98, 48, 99, 51, 102, 52, 49, 50, 50, 102, 97, 49, 51, 55, 57,
    56, 102, 55, 54, 57, 101, 10, 112, 97, 114, 101, 110, 116, 32, 52, 100, 53, 101, 55, 97, 99, 49, 52, 53, 97,
    97, 102, 52, 52, 48, 54, 48, 48, 100, 100, 48, 54, 97, 57, 55, 101, 56, 99, 99, 54, 53, 102, 56, 97, 99, 100,
    52, 100, 99, 10, 97, 117, 116, 104, 111, 114, 32, 74, 111, 104, 110, 32, 68, 111, 101, 32, 60, 106, 111, 104,
    110, 100, 111, 101, 64, 101, 120, 97, 109, 112, 108, 101, 46, 99, 111, 109, 62, 32, 49, 53, 50, 53, 49, 50,
    53, 57, 57, 52, 32, 43, 48, 50, 48, 48, 10, 99, 111, 109, 109, 105, 116, 116, 101, 114, 32, 74, 111, 104,
    110, 32, 68, 111, 101, 32, 60, 106, 111, 104, 110, 100, 111, 101, 64, 101, 120, 97, 109, 112, 108, 101, 46,
    99, 111, 109, 62, 32, 49, 53, 50, 53, 49, 50, 53, 57, 57, 52, 32, 43, 48, 50, 48, 48, 10, 101, 110, 99, 111,
    100, 105, 110, 103, 32, 73, 83, 79, 45, 56, 56, 53, 57, 45, 49, 10, 10, 69, 110, 99, 111, 100, 101, 100, 10] = true := by
  decide +kernel

/-- /repo/testdata.tar.gz: tree 7ffd1401f599c70364eda431d29363e037b2c92c. -/
example : again
    [116, 114, 101, 101, 32, 57, 51, 0, 49, 48, 48, 54, 52, 52, 32, 102, 49, 0, 25, 240, 128, 93, 141, 227, 107,
    100, 66, 232, 197, 115, 7, 65, 18, 186, 114, 173, 103, 128, 49, 48, 48, 54, 52, 52, 32, 102, 52, 0, 160, 240,
    108, 163, 205, 177, 230, 231, 246, 3, 121, 78, 241, 205, 159, 152, 103, 248, 85, 81, 52, 48, 48, 48, 48, 32,
    115, 117, 98, 100, 105, 114, 0, 10, 22, 144, 224, 100, 10, 33, 42, 175, 237, 24, 36, 235, 32, 143, 253, 218,
    177, 120, 155] = true := by
  decide +kernel

/-- /repo/testdata.tar.gz: blob 802992c4220de19a90767f3000a79a31b98d0df7. -/
example : again
    [98, 108, 111, 98, 32, 49, 50, 0, 72, 101, 108, 108, 111, 32, 119, 111, 114, 108, 100, 10] = true := by
  decide +kernel

/-- /repo/testdata.tar.gz: tree 832b4a8497de78248f70c06e0f06e785a74fea4c. -/
example : again
    [116, 114, 101, 101, 32, 54, 51, 0, 49, 48, 48, 54, 52, 52, 32, 102, 49, 0, 25, 240, 128, 93, 141, 227, 107,
    100, 66, 232, 197, 115, 7, 65, 18, 186, 114, 173, 103, 128, 52, 48, 48, 48, 48, 32, 115, 117, 98, 100, 105,
    114, 0, 10, 22, 144, 224, 100, 10, 33, 42, 175, 237, 24, 36, 235, 32, 143, 253, 218, 177, 120, 155] = true := by
  decide +kernel

/-- /repo/testdata.tar.gz: commit 88a72947d8b4f0ab7185389efcdd5dace4643e04. -/
example : again
    [99, 111, 109, 109, 105, 116, 32, 50, 49, 54, 0, 116, 114, 101, 101, 32, 102, 102, 101, 102, 53, 51, 53, 48,
    98, 54, 102, 56, 55, 54, 50, 99, 99, 54, 50, 55, 50, 98, 48, 50, 53, 53, 101, 57, 54, 56, 102, 53, 48, 98,
    54, 53, 55, 55, 101, 100, 10, 112, 97, 114, 101, 110, 116, 32, 52, 98, 50, 55, 49, 98, 101, 101, 99, 56, 54,
    57, 55, 56, 52, 53, 52, 48, 55, 50, 98, 54, 51, 50, 102, 51, 56, 50, 99, 54, 99, 99, 98, 51, 57, 51, 56, 97,
    52, 53, 10, 97, 117, 116, 104, 111, 114, 32, 74, 111, 104, 110, 32, 68, 111, 101, 32, 60, 106, 111, 104, 110,
    100, 111, 101, 64, 101, 120, 97, 109, 112, 108, 101, 46, 99, 111, 109, 62, 32, 49, 53, 50, 53, 49, 50, 53,
    57, 57, 52, 32, 43, 48, 50, 48, 48, 10, 99, 111, 109, 109, 105, 116, 116, 101, 114, 32, 74, 111, 104, 110,
    32, 68, 111, 101, 32, 60, 106, 111, 104, 110, 100, 111, 101, 64, 101, 120, 97, 109, 112, 108, 101, 46, 99,
    111, 109, 62, 32, 49, 53, 50, 53, 49, 50, 53, 57, 57, 52, 32, 43, 48, 50, 48, 48, 10, 10, 82, 101, 108, 101,
    97, 115, 101, 10] = true := by
  decide +kernel

/-- /repo/testdata.tar.gz: blob 933b7583b7767b07ea4cf242c1be29162eb8bb85. -/
example : again
    [98, 108, 111, 98, 32, 54, 0, 102, 103, 99, 114, 108, 10] = true := by
  decide +kernel

/-- /repo/testdata.tar.gz: blob 9f358a4addefcab294b83e4282bfef1f9625a249. -/
example : again
    [98, 108, 111, 98, 32, 55, 0, 49, 50, 51, 52, 53, 54, 10] = true := by
  decide +kernel

/-- /repo/testdata.tar.gz: blob a0f06ca3cdb1e6e7f603794ef1cd9f9867f85551. -/
example : again
    [98, 108, 111, 98, 32, 55, 0, 59, 113, 106, 107, 120, 98, 10] = true := by
  decide +kernel

/-- /repo/testdata.tar.gz: commit b1c46e7c32ff56e56a3da52be375348a664650ba. -/
example : again
    [99, 111, 109, 109, 105, 116, 32, 51, 52, 55, 0, 116, 114, 101, 101, 32, 48, 102, 97, 99, 99, 102, 56, 50,
    50, 98, 97, 100, 102, 53, 53, 102, 49, 53, 102, 98, 48, 99, 51, 102, 52, 49, 50, 50, 102, 97, 49, 51, 55, 57,
    56, 102, 55, 54, 57, 101, 10, 112, 97, 114, 101, 110, 116, 32, 52, 100, 53, 101, 55, 97, 99, 49, 52, 53, 97,
    97, 102, 52, 52, 48, 54, 48, 48, 100, 100, 48, 54, 97, 57, 55, 101, 56, 99, 99, 54, 53, 102, 56, 97, 99, 100,
    52, 100, 99, 10, 97, 117, 116, 104, 111, 114, 32, 74, 111, 104, 110, 32, 68, 111, 101, 32, 60, 106, 111, 104,
    110, 100, 111, 101, 64, 101, 120, 97, 109, 112, 108, 101, 46, 99, 111, 109, 62, 32, 49, 53, 50, 53, 49, 50,
    53, 57, 57, 52, 32, 43, 48, 50, 48, 48, 10, 99, 111, 109, 109, 105, 116, 116, 101, 114, 32, 74, 111, 104,
    110, 32, 68, 111, 101, 32, 60, 106, 111, 104, 110, 100, 111, 101, 64, 101, 120, 97, 109, 112, 108, 101, 46,
    99, 111, 109, 62, 32, 49, 53, 50, 53, 49, 50, 53, 57, 57, 52, 32, 43, 48, 50, 48, 48, 10, 103, 112, 103, 115,
    105, 103, 32, 45, 45, 45, 45, 45, 66, 69, 71, 73, 78, 32, 80, 71, 80, 32, 83, 73, 71, 78, 65, 84, 85, 82, 69,
    45, 45, 45, 45, 45, 10, 32, 86, 101, 114, 115, 105, 111, 110, 58, 32, 48, 46, 49, 46, 50, 10, 32, 10, 32, 78,
    111, 116, 82, 101, 97, 108, 108, 121, 65, 66, 97, 115, 101, 54, 52, 83, 105, 103, 110, 97, 116, 117, 114,
    101, 10, 32, 66, 117, 116, 73, 116, 115, 71, 111, 111, 100, 69, 110, 111, 117, 103, 104, 10, 32, 45, 45, 45,
    45, 45, 69, 78, 68, 32, 80, 71, 80, 32, 83, 73, 71, 78, 65, 84, 85, 82, 69, 45, 45, 45, 45, 45, 10, 32, 10,
    10, 69, 110, 99, 111, 100, 101, 100, 10] = true := by
  decide +kernel

/-- /repo/testdata.tar.gz: tag cf461f783732a8aa5f7d8679e112bd4c876aa19b. -/
example : again
    [116, 97, 103, 32, 49, 51, 54, 0, 111, 98, 106, 101, 99, 116, 32, 56, 56, 97, 55, 50, 57, 52, 55, 100, 56,
    98, 52, 102, 48, 97, 98, 55, 49, 56, 53, 51, 56, 57, 101, 102, 99, 100, 100, 53, 100, 97, 99, 101, 52, 54,
    52, 51, 101, 48, 52, 10, 116, 121, 112, 101, 32, 99, 111, 109, 109, 105, 116, 10, 116, 97, 103, 32, 118, 49,
    10, 116, 97, 103, 103, 101, 114, 32, 74, 111, 104, 110, 32, 68, 111, 101, 32, 60, 106, 111, 104, 110, 100,
    111, 101, 64, 101, 120, 97, 109, 112, 108, 101, 46, 99, 111, 109, 62, 32, 49, 53, 50, 53, 49, 50, 53, 57, 57,
    52, 32, 43, 48, 50, 48, 48, 10, 10, 83, 111, 109, 101, 32, 118, 101, 114, 115, 105, 111, 110, 10] = true := by
  decide +kernel

/-- /repo/testdata.tar.gz: tag d52e70c9e34ac03cdf77f46aec388c2f9574bd93. -/
example : again
    [116, 97, 103, 32, 49, 51, 54, 0, 111, 98, 106, 101, 99, 116, 32, 57, 51, 51, 98, 55, 53, 56, 51, 98, 55, 55,
    54, 55, 98, 48, 55, 101, 97, 52, 99, 102, 50, 52, 50, 99, 49, 98, 101, 50, 57, 49, 54, 50, 101, 98, 56, 98,
    98, 56, 53, 10, 116, 121, 112, 101, 32, 98, 108, 111, 98, 10, 116, 97, 103, 32, 118, 49, 45, 102, 105, 108,
    101, 10, 116, 97, 103, 103, 101, 114, 32, 74, 111, 104, 110, 32, 68, 111, 101, 32, 60, 106, 111, 104, 110,
    100, 111, 101, 64, 101, 120, 97, 109, 112, 108, 101, 46, 99, 111, 109, 62, 32, 49, 53, 50, 53, 49, 50, 53,
    57, 57, 53, 32, 43, 48, 50, 48, 48, 10, 10, 83, 111, 109, 101, 32, 102, 105, 108, 101, 10] = true := by
  decide +kernel

/-- /repo/testdata.tar.gz: tag ed19ea7ea03ecd036c653b9c4cba16df71424a60. -/
example : again
    [116, 97, 103, 32, 50, 52, 55, 0, 111, 98, 106, 101, 99, 116, 32, 56, 56, 97, 55, 50, 57, 52, 55, 100, 56,
    98, 52, 102, 48, 97, 98, 55, 49, 56, 53, 51, 56, 57, 101, 102, 99, 100, 100, 53, 100, 97, 99, 101, 52, 54,
    52, 51, 101, 48, 52, 10, 116, 121, 112, 101, 32, 99, 111, 109, 109, 105, 116, 10, 116, 97, 103, 32, 118, 49,
    115, 105, 103, 10, 116, 97, 103, 103, 101, 114, 32, 74, 111, 104, 110, 32, 68, 111, 101, 32, 60, 106, 111,
    104, 110, 100, 111, 101, 64, 101, 120, 97, 109, 112, 108, 101, 46, 99, 111, 109, 62, 32, 49, 53, 50, 53, 49,
    50, 53, 57, 57, 52, 32, 43, 48, 50, 48, 48, 10, 10, 83, 111, 109, 101, 32, 115, 105, 103, 110, 101, 100, 32,
    118, 101, 114, 115, 105, 111, 110, 10, 45, 45, 45, 45, 45, 66, 69, 71, 73, 78, 32, 80, 71, 80, 32, 83, 73,
    71, 78, 65, 84, 85, 82, 69, 45, 45, 45, 45, 45, 10, 78, 111, 116, 82, 101, 97, 108, 108, 121, 65, 66, 97,
    115, 101, 54, 52, 83, 105, 103, 110, 97, 116, 117, 114, 101, 10, 66, 117, 116, 73, 116, 115, 71, 111, 111,
    100, 69, 110, 111, 117, 103, 104, 10, 45, 45, 45, 45, 45, 69, 78, 68, 32, 80, 71, 80, 32, 83, 73, 71, 78, 65,
    84, 85, 82, 69, 45, 45, 45, 45, 45, 10] = true := by
  decide +kernel

/-- /repo/testdata.tar.gz: commit ee048050d16bc428c4faef1074b740866ad553bb. -/
example : again
    [99, 111, 109, 109, 105, 116, 32, 51, 50, 57, 0, 116, 114, 101, 101, 32, 48, 102, 97, 99, 99, 102, 56, 50,
    50, 98, 97, 100, 102, 53, 53, 102, 49, 53, 102, 98, 48, 99, 51, 102, 52, 49, 50, 50, 102, 97, 49, 51, 55, 57,
    56, 102, 55, 54, 57, 101, 10, 112, 97, 114, 101, 110, 116, 32, 52, 100, 53, 101, 55, 97, 99, 49, 52, 53, 97,
    97, 102, 52, 52, 48, 54, 48, 48, 100, 100, 48, 54, 97, 57, 55, 101, 56, 99, 99, 54, 53, 102, 56, 97, 99, 100,
    52, 100, 99, 10, 97, 117, 116, 104, 111, 114, 32, 74, 111, 104, 110, 32, 68, 111, 101, 32, 60, 106, 111, 104,
    110, 100, 111, 101, 64, 101, 120, 97, 109, 112, 108, 101, 46, 99, 111, 109, 62, 32, 49, 53, 50, 53, 49, 50,
    53, 57, 57, 52, 32, 43, 48, 50, 48, 48, 10, 99, 111, 109, 109, 105, 116, 116, 101, 114, 32, 74, 111, 104,
    110, 32, 68, 111, 101, 32, 60, 106, 111, 104, 110, 100, 111, 101, 64, 101, 120, 97, 109, 112, 108, 101, 46,
    99, 111, 109, 62, 32, 49, 53, 50, 53, 49, 50, 53, 57, 57, 52, 32, 43, 48, 50, 48, 48, 10, 103, 112, 103, 115,
    105, 103, 32, 45, 45, 45, 45, 45, 66, 69, 71, 73, 78, 32, 80, 71, 80, 32, 83, 73, 71, 78, 65, 84, 85, 82, 69,
    45, 45, 45, 45, 45, 10, 32, 10, 32, 78, 111, 116, 82, 101, 97, 108, 108, 121, 65, 66, 97, 115, 101, 54, 52,
    83, 105, 103, 110, 97, 116, 117, 114, 101, 10, 32, 66, 117, 116, 73, 116, 115, 71, 111, 111, 100, 69, 110,
    111, 117, 103, 104, 10, 32, 45, 45, 45, 45, 45, 69, 78, 68, 32, 80, 71, 80, 32, 83, 73, 71, 78, 65, 84, 85,
    82, 69, 45, 45, 45, 45, 45, 10, 10, 69, 110, 99, 111, 100, 101, 100, 10] = true := by
  decide +kernel

/-- /repo/testdata.tar.gz: tree f5227cbd32973ec90f48f2547e6fe16c80b92bd5. -/
example : again
    [116, 114, 101, 101, 32, 57, 51, 0, 52, 48, 48, 48, 48, 32, 100, 105, 114, 0, 131, 43, 74, 132, 151, 222,
    120, 36, 143, 112, 192, 110, 15, 6, 231, 133, 167, 79, 234, 76, 52, 48, 48, 48, 48, 32, 100, 105, 114, 50, 0,
    90, 244, 220, 24, 137, 158, 138, 201, 89, 4, 234, 242, 180, 171, 241, 162, 202, 94, 21, 7, 49, 48, 48, 54,
    52, 52, 32, 102, 105, 108, 101, 0, 128, 41, 146, 196, 34, 13, 225, 154, 144, 118, 127, 48, 0, 167, 154, 49,
    185, 141, 13, 247] = true := by
  decide +kernel

/-- /repo/testdata.tar.gz: tree fa59b93c6ce9db82ce57de9046eb738e9f3c0952. -/
example : again
    [116, 114, 101, 101, 32, 51, 50, 0, 49, 48, 48, 54, 52, 52, 32, 102, 105, 108, 101, 0, 128, 41, 146, 196, 34,
    13, 225, 154, 144, 118, 127, 48, 0, 167, 154, 49, 185, 141, 13, 247] = true := by
  decide +kernel

/-- /repo/testdata.tar.gz: blob fc80daf21bb484cfd42ad4ed4d17da48638199ea. -/
example : again
    [98, 108, 111, 98, 32, 55, 0, 39, 44, 46, 112, 121, 102, 10] = true := by
  decide +kernel

/-- /repo/testdata.tar.gz: tree ffef5350b6f8762cc6272b0255e968f50b6577ed. -/
example : again
    [116, 114, 101, 101, 32, 57, 51, 0, 52, 48, 48, 48, 48, 32, 100, 105, 114, 0, 127, 253, 20, 1, 245, 153, 199,
    3, 100, 237, 164, 49, 210, 147, 99, 224, 55, 178, 201, 44, 52, 48, 48, 48, 48, 32, 100, 105, 114, 50, 0, 90,
    244, 220, 24, 137, 158, 138, 201, 89, 4, 234, 242, 180, 171, 241, 162, 202, 94, 21, 7, 49, 48, 48, 54, 52,
    52, 32, 102, 105, 108, 101, 0, 128, 41, 146, 196, 34, 13, 225, 154, 144, 118, 127, 48, 0, 167, 154, 49, 185,
    141, 13, 247] = true := by
  decide +kernel

/-- /repo/git_test.go:236-401. -/
example :
    parsePersonInfo (b!"prefix Someone <some@one.somewhere> 123456 +0123") =
      .ok ⟨b!"Someone", b!"some@one.somewhere", b!"123456", b!"+0123"⟩ ∧
    gitString ⟨b!"Someone", b!"some@one.somewhere", b!"123456", b!"+0123"⟩ = b!"Someone <some@one.somewhere> 123456 +0123" := by
  decide +kernel

/-- /repo/git_test.go:236-401. -/
example :
    parsePersonInfo (b!"prefix So Me One <some@one.somewhere> 123456 +0123") =
      .ok ⟨b!"So Me One", b!"some@one.somewhere", b!"123456", b!"+0123"⟩ ∧
    gitString ⟨b!"So Me One", b!"some@one.somewhere", b!"123456", b!"+0123"⟩ = b!"So Me One <some@one.somewhere> 123456 +0123" := by
  decide +kernel

/-- /repo/git_test.go:236-401. -/
example :
    parsePersonInfo (b!"prefix Some One & Other One <some@one.somewhere, other@one.elsewhere> 987654 +4321") =
      .ok ⟨b!"Some One & Other One", b!"some@one.somewhere, other@one.elsewhere", b!"987654", b!"+4321"⟩ ∧
    gitString ⟨b!"Some One & Other One", b!"some@one.somewhere, other@one.elsewhere", b!"987654", b!"+4321"⟩ = b!"Some One & Other One <some@one.somewhere, other@one.elsewhere> 987654 +4321" := by
  decide +kernel

/-- /repo/git_test.go:236-401. -/
example :
    parsePersonInfo (b!"prefix  <some@one.somewhere> 987654 +4321") =
      .ok ⟨b!"", b!"some@one.somewhere", b!"987654", b!"+4321"⟩ ∧
    gitString ⟨b!"", b!"some@one.somewhere", b!"987654", b!"+4321"⟩ = b!" <some@one.somewhere> 987654 +4321" := by
  decide +kernel

/-- /repo/git_test.go:236-401. -/
example :
    parsePersonInfo (b!"prefix Someone  <some@one.somewhere> 987654 +4321") =
      .ok ⟨b!"Someone ", b!"some@one.somewhere", b!"987654", b!"+4321"⟩ ∧
    gitString ⟨b!"Someone ", b!"some@one.somewhere", b!"987654", b!"+4321"⟩ = b!"Someone  <some@one.somewhere> 987654 +4321" := by
  decide +kernel

/-- /repo/git_test.go:236-401. -/
example :
    parsePersonInfo (b!"prefix Someone <some.one@some.where>") =
      .ok ⟨b!"Someone", b!"some.one@some.where", b!"", b!""⟩ ∧
    gitString ⟨b!"Someone", b!"some.one@some.where", b!"", b!""⟩ = b!"Someone <some.one@some.where>" := by
  decide +kernel

/-- /repo/git_test.go:236-401. -/
example :
    parsePersonInfo ([112, 114, 101, 102, 105, 120, 32, 197, 129, 117, 107, 97, 115, 122, 32, 77, 97, 103, 105, 101, 114, 97, 32,
    60, 109, 97, 103, 105, 107, 54, 107, 64, 117, 115, 101, 114, 115, 46, 110, 111, 114, 101, 112, 108, 121, 46,
    103, 105, 116, 104, 117, 98, 46, 99, 111, 109, 62, 32, 49, 53, 52, 54, 49, 56, 55, 54, 53, 50, 32, 43, 48,
    49, 48, 48]) =
      .ok ⟨[197, 129, 117, 107, 97, 115, 122, 32, 77, 97, 103, 105, 101, 114, 97], b!"magik6k@users.noreply.github.com", b!"1546187652", b!"+0100"⟩ ∧
    gitString ⟨[197, 129, 117, 107, 97, 115, 122, 32, 77, 97, 103, 105, 101, 114, 97], b!"magik6k@users.noreply.github.com", b!"1546187652", b!"+0100"⟩ = [197, 129, 117, 107, 97, 115, 122, 32, 77, 97, 103, 105, 101, 114, 97, 32, 60, 109, 97, 103, 105, 107, 54,
    107, 64, 117, 115, 101, 114, 115, 46, 110, 111, 114, 101, 112, 108, 121, 46, 103, 105, 116, 104, 117, 98, 46,
    99, 111, 109, 62, 32, 49, 53, 52, 54, 49, 56, 55, 54, 53, 50, 32, 43, 48, 49, 48, 48] := by
  decide +kernel

/-- /repo/git_test.go:236-401. -/
example :
    parsePersonInfo (b!"prefix Sameer <sameer@users.noreply.github.com> 1545162499 -0500") =
      .ok ⟨b!"Sameer", b!"sameer@users.noreply.github.com", b!"1545162499", b!"-0500"⟩ ∧
    gitString ⟨b!"Sameer", b!"sameer@users.noreply.github.com", b!"1545162499", b!"-0500"⟩ = b!"Sameer <sameer@users.noreply.github.com> 1545162499 -0500" := by
  decide +kernel

/-- /repo/unmarshal_test.go:17-21. -/
example : parseObjectFromBuffer b!"" = .err .unexpectedEof := by decide +kernel

/-- /repo/unmarshal_test.go:17-21. -/
example : parseObjectFromBuffer b!"  " = .err .badType := by decide +kernel

/-- /repo/unmarshal_test.go:17-21. -/
example : parseObjectFromBuffer b!"foo" = .err .unexpectedEof := by decide +kernel

/-- /repo/unmarshal_test.go:17-21. -/
example : parseObjectFromBuffer b!"foo " = .err .badType := by decide +kernel

end Verif.Tests
