import Verif.Py
/-
The frequency tables of compressor/headerdiff/Huffman.py.  Both have an entry for each of the symbols
0 to 256, in this order; only the frequencies are listed.
-/
namespace Verif.HeaderDiff
open Verif

/-- Huffman.py 202-460, the frequencies of request_stats for the symbols 0 to 256. -/
def requestFreqs : List Nat :=
  [0, 0, 0, 0, 0, 0, 0, 0, 0, 0, 0, 0, 0, 0, 0, 0, 0, 0, 0, 0, 0, 0, 0, 0, 0, 0, 0, 0, 0, 0, 0, 0, 1026, 944, 150,
   155, 114, 43769, 24855, 113, 968, 1049, 889, 1089, 4008, 31547, 46976, 30217, 61671, 64539, 73324, 47629,
   32652, 34202, 29060, 33486, 28244, 31614, 2466, 4941, 18, 36853, 63, 3891, 152, 15737, 8813, 10216, 11895,
   6637, 18246, 3816, 4529, 5458, 3659, 2504, 4699, 5945, 4391, 4581, 4264, 4223, 4877, 5744, 7163, 4396, 4407,
   4514, 5509, 4247, 2883, 257, 0, 274, 142, 26219, 17, 51091, 21671, 45189, 34389, 76843, 23063, 31026, 19036,
   51279, 14245, 11033, 34184, 30439, 42519, 44796, 36591, 5376, 40241, 48979, 56413, 26014, 11371, 18784, 10070,
   9174, 5963, 29, 1531, 29, 490, 0, 0, 0, 0, 0, 0, 0, 0, 0, 0, 0, 0, 0, 0, 0, 0, 0, 0, 0, 0, 0, 0, 0, 0, 0, 0, 0,
   0, 0, 0, 0, 0, 0, 0, 0, 0, 0, 0, 0, 0, 0, 0, 0, 0, 0, 0, 0, 0, 0, 0, 0, 0, 0, 0, 0, 0, 0, 0, 0, 0, 0, 0, 0, 0,
   0, 0, 0, 0, 0, 0, 0, 0, 0, 0, 0, 0, 0, 0, 0, 0, 0, 0, 0, 0, 0, 0, 0, 0, 0, 0, 0, 0, 0, 0, 0, 0, 0, 0, 0, 0, 0,
   0, 0, 0, 0, 0, 0, 0, 0, 0, 0, 0, 0, 0, 0, 0, 0, 0, 0, 0, 0, 0, 0, 0, 0, 0, 0, 0, 0, 22803]

/-- Huffman.py 465-723, the frequencies of response_stats for the symbols 0 to 256. -/
def responseFreqs : List Nat :=
  [0, 0, 0, 0, 0, 0, 0, 0, 0, 0, 0, 0, 0, 0, 0, 0, 0, 0, 0, 0, 0, 0, 0, 0, 0, 0, 0, 0, 0, 0, 0, 0, 57434, 468,
   6017, 156, 61, 2379, 1535, 188, 1354, 1854, 408, 1088, 4088, 12270, 12094, 5389, 51167, 49470, 46318, 34850,
   32732, 29867, 23980, 24184, 25422, 24720, 28394, 3104, 19, 8304, 90, 216, 15, 7970, 3660, 5013, 6058, 4429,
   5438, 22479, 2356, 4079, 3624, 1719, 2720, 24732, 4641, 4512, 4081, 2166, 3377, 6182, 25239, 3518, 2892, 2336,
   2080, 2080, 1882, 368, 96, 436, 43, 3289, 11, 21432, 9701, 20280, 13496, 21771, 11557, 6700, 6961, 11591, 3168,
   3305, 7927, 8196, 10878, 14524, 10058, 2567, 11052, 9721, 12552, 7250, 4429, 3763, 5260, 4208, 2565, 7, 58, 15,
   19, 0, 0, 0, 0, 0, 0, 0, 0, 0, 0, 0, 0, 0, 0, 0, 0, 0, 0, 0, 0, 0, 0, 0, 0, 0, 0, 0, 0, 0, 0, 0, 0, 0, 0, 0, 0,
   0, 0, 0, 0, 0, 0, 0, 0, 0, 0, 0, 0, 0, 0, 0, 0, 0, 0, 0, 0, 0, 0, 0, 0, 0, 0, 0, 0, 0, 0, 0, 0, 0, 0, 0, 0, 0,
   0, 0, 0, 0, 0, 0, 0, 0, 0, 0, 0, 0, 0, 0, 0, 0, 0, 0, 0, 0, 0, 0, 0, 0, 0, 0, 0, 0, 0, 0, 0, 0, 0, 0, 0, 0, 0,
   0, 0, 0, 0, 0, 0, 0, 0, 0, 0, 0, 0, 0, 0, 0, 0, 0, 0, 0, 57125]

/-- Huffman.py 202-460, request_stats. -/
def requestStats : List (Nat × Nat) := (List.range 257).zip requestFreqs

/-- Huffman.py 465-723, response_stats. -/
def responseStats : List (Nat × Nat) := (List.range 257).zip responseFreqs

end Verif.HeaderDiff
