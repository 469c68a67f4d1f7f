import Verif.Lemmas.RowSpan
-- Generated by tools/gen_designs.py from /repo/commpy/channelcoding/designs/ldpc/gallager/96.33.964.txt
namespace Verif

/-- All characters of the design file (designs/ldpc/gallager/96.33.964.txt:1-149). -/
def gallager964Text : List Char := [
  '9', '6', ' ', '4', '8', '\n', '3', ' ', '6', '\n', '3', ' ', '3', ' ', '3', ' ', '3', ' ', '3', ' ', '3', ' ', '3', ' ', '3', ' ', '3', ' ', '3',
  ' ', '3', ' ', '3', ' ', '3', ' ', '3', ' ', '3', ' ', '3', ' ', '3', ' ', '3', ' ', '3', ' ', '3', ' ', '3', ' ', '3', ' ', '3', ' ', '3', ' ', '3',
  ' ', '3', ' ', '3', ' ', '3', ' ', '3', ' ', '3', ' ', '3', ' ', '3', ' ', '3', ' ', '3', ' ', '3', ' ', '3', ' ', '3', ' ', '3', ' ', '3', ' ', '3',
  ' ', '3', ' ', '3', ' ', '3', ' ', '3', ' ', '3', ' ', '3', ' ', '3', ' ', '3', ' ', '3', ' ', '3', ' ', '3', ' ', '3', ' ', '3', ' ', '3', ' ', '3',
  ' ', '3', ' ', '3', ' ', '3', ' ', '3', ' ', '3', ' ', '3', ' ', '3', ' ', '3', ' ', '3', ' ', '3', ' ', '3', ' ', '3', ' ', '3', ' ', '3', ' ', '3',
  ' ', '3', ' ', '3', ' ', '3', ' ', '3', ' ', '3', ' ', '3', ' ', '3', ' ', '3', ' ', '3', ' ', '3', ' ', '3', ' ', '3', ' ', '3', ' ', '3', ' ', '3',
  ' ', '3', ' ', '3', ' ', '3', ' ', '3', ' ', '3', ' ', '3', ' ', '3', ' ', '3', ' ', '3', ' ', '3', ' ', '3', ' ', '\n', '6', ' ', '6', ' ', '6',
  ' ', '6', ' ', '6', ' ', '6', ' ', '6', ' ', '6', ' ', '6', ' ', '6', ' ', '6', ' ', '6', ' ', '6', ' ', '6', ' ', '6', ' ', '6', ' ', '6', ' ', '6',
  ' ', '6', ' ', '6', ' ', '6', ' ', '6', ' ', '6', ' ', '6', ' ', '6', ' ', '6', ' ', '6', ' ', '6', ' ', '6', ' ', '6', ' ', '6', ' ', '6', ' ', '6',
  ' ', '6', ' ', '6', ' ', '6', ' ', '6', ' ', '6', ' ', '6', ' ', '6', ' ', '6', ' ', '6', ' ', '6', ' ', '6', ' ', '6', ' ', '6', ' ', '6', ' ', '6',
  ' ', '\n', '4', '7', '\t', '4', '\t', '2', '1', '\n', '3', '3', '\t', '3', '8', '\t', '3', '1', '\n', '1', '1', '\t', '1', '\t', '3', '3', '\n', '3',
  '\t', '4', '8', '\t', '3', '7', '\n', '4', '2', '\t', '9', '\t', '3', '6', '\n', '1', '7', '\t', '2', '2', '\t', '7', '\n', '4', '8', '\t', '1', '5',
  '\t', '1', '3', '\n', '4', '0', '\t', '2', '8', '\t', '4', '7', '\n', '2', '2', '\t', '4', '2', '\t', '5', '\n', '2', '8', '\t', '3', '3', '\t', '3',
  '0', '\n', '2', '7', '\t', '1', '8', '\t', '1', '9', '\n', '2', '\t', '3', '4', '\t', '1', '0', '\n', '3', '8', '\t', '4', '1', '\t', '2', '7', '\n',
  '1', '8', '\t', '7', '\t', '3', '2', '\n', '1', '6', '\t', '3', '2', '\t', '4', '5', '\n', '2', '6', '\t', '2', '4', '\t', '1', '\n', '2', '5', '\t',
  '1', '6', '\t', '2', '2', '\n', '3', '5', '\t', '2', '5', '\t', '3', '4', '\n', '3', '7', '\t', '2', '\t', '1', '1', '\n', '2', '1', '\t', '3', '\t',
  '3', '9', '\n', '3', '4', '\t', '2', '1', '\t', '2', '8', '\n', '1', '2', '\t', '1', '3', '\t', '6', '\n', '1', '\t', '3', '9', '\t', '3', '8', '\n',
  '9', '\t', '8', '\t', '1', '2', '\n', '4', '4', '\t', '1', '2', '\t', '4', '8', '\n', '2', '9', '\t', '1', '4', '\t', '9', '\n', '3', '1', '\t', '2',
  '9', '\t', '2', '6', '\n', '5', '\t', '4', '6', '\t', '1', '4', '\n', '3', '6', '\t', '6', '\t', '2', '4', '\n', '4', '6', '\t', '2', '3', '\t', '3',
  '\n', '4', '5', '\t', '3', '0', '\t', '4', '\n', '2', '4', '\t', '1', '1', '\t', '8', '\n', '2', '3', '\t', '1', '0', '\t', '4', '2', '\n', '7',
  '\t', '3', '5', '\t', '4', '3', '\n', '3', '2', '\t', '1', '9', '\t', '4', '1', '\n', '1', '9', '\t', '2', '0', '\t', '2', '5', '\n', '1', '5', '\t',
  '4', '7', '\t', '4', '6', '\n', '3', '9', '\t', '3', '1', '\t', '2', '\n', '1', '3', '\t', '4', '3', '\t', '2', '0', '\n', '4', '3', '\t', '4', '0',
  '\t', '1', '5', '\n', '8', '\t', '5', '\t', '3', '5', '\n', '4', '\t', '2', '6', '\t', '4', '4', '\n', '6', '\t', '3', '7', '\t', '1', '7', '\n',
  '1', '0', '\t', '4', '5', '\t', '1', '8', '\n', '2', '0', '\t', '2', '7', '\t', '2', '9', '\n', '3', '0', '\t', '1', '7', '\t', '1', '6', '\n', '4',
  '1', '\t', '3', '6', '\t', '2', '3', '\n', '1', '4', '\t', '4', '4', '\t', '4', '0', '\n', '7', '\t', '3', '1', '\t', '4', '2', '\n', '2', '5', '\t',
  '2', '3', '\t', '2', '1', '\n', '2', '2', '\t', '3', '4', '\t', '4', '1', '\n', '4', '2', '\t', '3', '\t', '1', '9', '\n', '4', '0', '\t', '3', '5',
  '\t', '2', '7', '\n', '2', '1', '\t', '1', '9', '\t', '1', '7', '\n', '4', '\t', '8', '\t', '2', '8', '\n', '3', '5', '\t', '4', '5', '\t', '3', '1',
  '\n', '2', '\t', '2', '8', '\t', '3', '2', '\n', '3', '7', '\t', '3', '0', '\t', '9', '\n', '3', '8', '\t', '4', '0', '\t', '3', '0', '\n', '3', '4',
  '\t', '3', '6', '\t', '1', '3', '\n', '3', '3', '\t', '4', '6', '\t', '1', '0', '\n', '3', '2', '\t', '1', '2', '\t', '4', '0', '\n', '1', '8', '\t',
  '4', '1', '\t', '1', '1', '\n', '1', '7', '\t', '1', '\t', '2', '\n', '4', '5', '\t', '3', '9', '\t', '2', '9', '\n', '9', '\t', '4', '8', '\t', '4',
  '\n', '4', '7', '\t', '1', '1', '\t', '3', '4', '\n', '1', '9', '\t', '2', '9', '\t', '2', '4', '\n', '4', '4', '\t', '1', '7', '\t', '5', '\n', '1',
  '5', '\t', '2', '\t', '3', '\n', '1', '6', '\t', '2', '1', '\t', '3', '3', '\n', '1', '1', '\t', '2', '0', '\t', '4', '4', '\n', '2', '0', '\t', '9',
  '\t', '4', '7', '\n', '2', '3', '\t', '4', '7', '\t', '3', '8', '\n', '2', '4', '\t', '1', '6', '\t', '1', '2', '\n', '4', '1', '\t', '2', '4', '\t',
  '3', '7', '\n', '3', '9', '\t', '5', '\t', '4', '3', '\n', '6', '\t', '4', '3', '\t', '2', '3', '\n', '3', '1', '\t', '1', '0', '\t', '1', '6', '\n',
  '4', '8', '\t', '3', '3', '\t', '3', '5', '\n', '2', '8', '\t', '1', '8', '\t', '4', '8', '\n', '8', '\t', '4', '2', '\t', '1', '8', '\n', '3', '6',
  '\t', '3', '2', '\t', '8', '\n', '1', '4', '\t', '6', '\t', '2', '5', '\n', '2', '9', '\t', '1', '5', '\t', '3', '6', '\n', '4', '6', '\t', '3', '8',
  '\t', '2', '6', '\n', '5', '\t', '4', '\t', '6', '\n', '2', '7', '\t', '4', '4', '\t', '2', '2', '\n', '2', '6', '\t', '2', '2', '\t', '4', '5',
  '\n', '4', '3', '\t', '2', '7', '\t', '1', '\n', '1', '0', '\t', '2', '5', '\t', '3', '9', '\n', '1', '2', '\t', '1', '4', '\t', '7', '\n', '1', '3',
  '\t', '7', '\t', '4', '6', '\n', '3', '0', '\t', '1', '3', '\t', '1', '4', '\n', '3', '\t', '2', '6', '\t', '2', '0', '\n', '1', '\t', '3', '7',
  '\t', '1', '5', '\n', '2', '3', '\t', '9', '6', '\t', '3', '\t', '6', '4', '\t', '1', '6', '\t', '9', '0', '\n', '1', '2', '\t', '5', '7', '\t', '1',
  '9', '\t', '7', '0', '\t', '3', '8', '\t', '6', '4', '\n', '4', '\t', '9', '5', '\t', '2', '0', '\t', '5', '2', '\t', '3', '0', '\t', '7', '0', '\n',
  '4', '2', '\t', '5', '5', '\t', '1', '\t', '8', '7', '\t', '3', '1', '\t', '6', '6', '\n', '2', '8', '\t', '8', '7', '\t', '4', '1', '\t', '7', '7',
  '\t', '9', '\t', '6', '9', '\n', '4', '3', '\t', '7', '8', '\t', '2', '9', '\t', '8', '4', '\t', '2', '2', '\t', '8', '7', '\n', '3', '4', '\t', '4',
  '9', '\t', '1', '4', '\t', '9', '3', '\t', '6', '\t', '9', '2', '\n', '4', '1', '\t', '8', '2', '\t', '2', '4', '\t', '5', '5', '\t', '3', '2', '\t',
  '8', '3', '\n', '2', '4', '\t', '6', '6', '\t', '5', '\t', '7', '3', '\t', '2', '6', '\t', '5', '8', '\n', '4', '4', '\t', '9', '1', '\t', '3', '3',
  '\t', '7', '9', '\t', '1', '2', '\t', '6', '1', '\n', '3', '\t', '7', '2', '\t', '3', '2', '\t', '6', '7', '\t', '1', '9', '\t', '6', '3', '\n', '2',
  '2', '\t', '9', '2', '\t', '2', '5', '\t', '6', '2', '\t', '2', '4', '\t', '7', '5', '\n', '3', '9', '\t', '9', '3', '\t', '2', '2', '\t', '9', '4',
  '\t', '7', '\t', '6', '0', '\n', '4', '8', '\t', '8', '4', '\t', '2', '6', '\t', '9', '2', '\t', '2', '8', '\t', '9', '4', '\n', '3', '7', '\t', '7',
  '0', '\t', '7', '\t', '8', '5', '\t', '4', '0', '\t', '9', '6', '\n', '1', '5', '\t', '7', '1', '\t', '1', '7', '\t', '7', '5', '\t', '4', '6', '\t',
  '7', '9', '\n', '6', '\t', '6', '4', '\t', '4', '6', '\t', '6', '9', '\t', '4', '3', '\t', '5', '4', '\n', '1', '4', '\t', '6', '3', '\t', '1', '1',
  '\t', '8', '1', '\t', '4', '4', '\t', '8', '2', '\n', '3', '6', '\t', '6', '8', '\t', '3', '5', '\t', '5', '4', '\t', '1', '1', '\t', '5', '2', '\n',
  '4', '5', '\t', '7', '3', '\t', '3', '6', '\t', '7', '2', '\t', '3', '9', '\t', '9', '5', '\n', '2', '0', '\t', '5', '4', '\t', '2', '1', '\t', '7',
  '1', '\t', '1', '\t', '5', '0', '\n', '9', '\t', '5', '1', '\t', '6', '\t', '8', '9', '\t', '1', '7', '\t', '8', '8', '\n', '3', '3', '\t', '7', '4',
  '\t', '3', '0', '\t', '5', '0', '\t', '4', '7', '\t', '7', '8', '\n', '3', '2', '\t', '7', '5', '\t', '1', '6', '\t', '7', '6', '\t', '2', '9', '\t',
  '6', '8', '\n', '1', '7', '\t', '5', '0', '\t', '1', '8', '\t', '9', '1', '\t', '3', '6', '\t', '8', '4', '\n', '1', '6', '\t', '8', '9', '\t', '4',
  '2', '\t', '9', '5', '\t', '2', '7', '\t', '8', '6', '\n', '1', '1', '\t', '8', '8', '\t', '4', '5', '\t', '9', '0', '\t', '1', '3', '\t', '5', '3',
  '\n', '1', '0', '\t', '8', '1', '\t', '8', '\t', '5', '7', '\t', '2', '1', '\t', '5', '5', '\n', '2', '6', '\t', '8', '5', '\t', '2', '7', '\t', '6',
  '8', '\t', '4', '5', '\t', '6', '5', '\n', '4', '6', '\t', '9', '4', '\t', '3', '1', '\t', '5', '8', '\t', '1', '0', '\t', '5', '9', '\n', '2', '7',
  '\t', '7', '9', '\t', '3', '8', '\t', '4', '9', '\t', '2', '\t', '5', '6', '\n', '3', '5', '\t', '6', '2', '\t', '1', '5', '\t', '8', '3', '\t', '1',
  '4', '\t', '5', '7', '\n', '2', '\t', '6', '1', '\t', '1', '0', '\t', '8', '0', '\t', '3', '\t', '7', '1', '\n', '2', '1', '\t', '6', '0', '\t', '1',
  '2', '\t', '5', '1', '\t', '1', '8', '\t', '6', '7', '\n', '1', '8', '\t', '5', '6', '\t', '3', '4', '\t', '5', '3', '\t', '4', '1', '\t', '8', '0',
  '\n', '2', '9', '\t', '8', '3', '\t', '4', '7', '\t', '6', '0', '\t', '5', '\t', '8', '5', '\n', '1', '9', '\t', '5', '8', '\t', '4', '3', '\t', '9',
  '6', '\t', '4', '\t', '7', '6', '\n', '1', '3', '\t', '5', '9', '\t', '2', '\t', '8', '6', '\t', '2', '3', '\t', '7', '4', '\n', '3', '8', '\t', '7',
  '7', '\t', '2', '3', '\t', '6', '5', '\t', '2', '0', '\t', '9', '1', '\n', '8', '\t', '5', '3', '\t', '4', '0', '\t', '5', '9', '\t', '4', '8', '\t',
  '6', '2', '\n', '4', '7', '\t', '7', '6', '\t', '1', '3', '\t', '6', '3', '\t', '3', '5', '\t', '5', '1', '\n', '5', '\t', '5', '2', '\t', '9', '\t',
  '8', '2', '\t', '3', '3', '\t', '4', '9', '\n', '4', '0', '\t', '9', '0', '\t', '3', '9', '\t', '7', '8', '\t', '3', '4', '\t', '7', '7', '\n', '2',
  '5', '\t', '6', '9', '\t', '4', '8', '\t', '8', '8', '\t', '4', '2', '\t', '7', '2', '\n', '3', '1', '\t', '6', '5', '\t', '4', '4', '\t', '5', '6',
  '\t', '1', '5', '\t', '8', '9', '\n', '3', '0', '\t', '8', '6', '\t', '2', '8', '\t', '6', '1', '\t', '3', '7', '\t', '9', '3', '\n', '1', '\t', '6',
  '7', '\t', '3', '7', '\t', '7', '4', '\t', '8', '\t', '7', '3', '\n', '7', '\t', '8', '0', '\t', '4', '\t', '6', '6', '\t', '2', '5', '\t', '8', '1',
  '\n']

/-- The checks listed in the design file (designs/ldpc/gallager/96.33.964.txt:101-148), columns counted from 0, sorted. -/
def gallager964Checks : Checks := [
  [2, 15, 22, 63, 89, 95], [11, 18, 37, 56, 63, 69], [3, 19, 29, 51, 69, 94], [0, 30, 41, 54, 65, 86], [8, 27, 40, 68, 76, 86],
  [21, 28, 42, 77, 83, 86], [5, 13, 33, 48, 91, 92], [23, 31, 40, 54, 81, 82], [4, 23, 25, 57, 65, 72], [11, 32, 43, 60, 78, 90],
  [2, 18, 31, 62, 66, 71], [21, 23, 24, 61, 74, 91], [6, 21, 38, 59, 92, 93], [25, 27, 47, 83, 91, 93], [6, 36, 39, 69, 84, 95],
  [14, 16, 45, 70, 74, 78], [5, 42, 45, 53, 63, 68], [10, 13, 43, 62, 80, 81], [10, 34, 35, 51, 53, 67], [35, 38, 44, 71, 72, 94],
  [0, 19, 20, 49, 53, 70], [5, 8, 16, 50, 87, 88], [29, 32, 46, 49, 73, 77], [15, 28, 31, 67, 74, 75], [16, 17, 35, 49, 83, 90],
  [15, 26, 41, 85, 88, 94], [10, 12, 44, 52, 87, 89], [7, 9, 20, 54, 56, 80], [25, 26, 44, 64, 67, 84], [9, 30, 45, 57, 58, 93],
  [1, 26, 37, 48, 55, 78], [13, 14, 34, 56, 61, 82], [1, 2, 9, 60, 70, 79], [11, 17, 20, 50, 59, 66], [17, 33, 40, 52, 55, 79],
  [4, 28, 46, 59, 82, 84], [3, 18, 42, 57, 75, 95], [1, 12, 22, 58, 73, 85], [19, 22, 37, 64, 76, 90], [7, 39, 47, 52, 58, 61],
  [12, 34, 46, 50, 62, 75], [4, 8, 32, 48, 51, 81], [33, 38, 39, 76, 77, 89], [24, 41, 47, 68, 71, 87], [14, 30, 43, 55, 64, 88],
  [27, 29, 36, 60, 85, 92], [0, 7, 36, 66, 72, 73], [3, 6, 24, 65, 79, 80]]

/-- Certificate that the last 48 columns are invertible modulo 2. -/
def gallager964Cert : List (List (Int × Nat) × Nat) := [
  
  ([(1, 3), (1, 5), (1, 6), (1, 9), (1, 10), (1, 12), (1, 13), (1, 15), (1, 19), (1, 21), (1, 23), (1, 25), (1, 26), (1, 27), (1, 28), (1, 31), (1, 32), (1, 35), (1, 37), (1, 38), (1, 39), (1, 40), (1, 42), (1, 46), (1, 47)], 0),
  ([(1, 1), (1, 3), (1, 4), (1, 8), (1, 11), (1, 12), (1, 13), (1, 14), (1, 15), (1, 16), (1, 17), (1, 18), (1, 24), (1, 27), (1, 28), (1, 30), (1, 32), (1, 33), (1, 34), (1, 36), (1, 37), (1, 38), (1, 39), (1, 40), (1, 41), (1, 45), (1, 46)], 1),
  ([(1, 3), (1, 5), (1, 8), (1, 10), (1, 11), (1, 13), (1, 15), (1, 17), (1, 18), (1, 19), (1, 20), (1, 22), (1, 25), (1, 27), (1, 28), (1, 29), (1, 30), (1, 31), (1, 33), (1, 35), (1, 37), (1, 41), (1, 44)], 2),
  ([(1, 2), (1, 3), (1, 4), (1, 7), (1, 9), (1, 11), (1, 13), (1, 14), (1, 15), (1, 17), (1, 19), (1, 22), (1, 24), (1, 26), (1, 29), (1, 32), (1, 33), (1, 35), (1, 36), (1, 39), (1, 40), (1, 42), (1, 43), (1, 46), (1, 47)], 3),
  ([(1, 0), (1, 2), (1, 3), (1, 5), (1, 7), (1, 9), (1, 14), (1, 15), (1, 16), (1, 17), (1, 18), (1, 19), (1, 22), (1, 23), (1, 24), (1, 26), (1, 32), (1, 33), (1, 35), (1, 40), (1, 43), (1, 46), (1, 47)], 4),
  ([(1, 0), (1, 1), (1, 3), (1, 4), (1, 6), (1, 10), (1, 12), (1, 13), (1, 14), (1, 15), (1, 20), (1, 23), (1, 24), (1, 26), (1, 27), (1, 28), (1, 30), (1, 33), (1, 34), (1, 38), (1, 40), (1, 43), (1, 47)], 5),
  ([(1, 0), (1, 1), (1, 4), (1, 5), (1, 6), (1, 8), (1, 10), (1, 13), (1, 14), (1, 15), (1, 21), (1, 23), (1, 27), (1, 28), (1, 29), (1, 30), (1, 32), (1, 37), (1, 40), (1, 42), (1, 43), (1, 44), (1, 45), (1, 46), (1, 47)], 6),
  ([(1, 0), (1, 1), (1, 3), (1, 4), (1, 6), (1, 8), (1, 10), (1, 13), (1, 14), (1, 17), (1, 18), (1, 20), (1, 24), (1, 26), (1, 27), (1, 28), (1, 29), (1, 32), (1, 34), (1, 37), (1, 38), (1, 41), (1, 43), (1, 45), (1, 46)], 7),
  ([(1, 1), (1, 3), (1, 4), (1, 10), (1, 12), (1, 14), (1, 16), (1, 19), (1, 20), (1, 21), (1, 22), (1, 25), (1, 26), (1, 27), (1, 29), (1, 31), (1, 32), (1, 35), (1, 36), (1, 39), (1, 40), (1, 42), (1, 45), (1, 46), (1, 47)], 8),
  ([(1, 0), (1, 6), (1, 9), (1, 10), (1, 12), (1, 13), (1, 16), (1, 20), (1, 24), (1, 26), (1, 30), (1, 32), (1, 33), (1, 34), (1, 36), (1, 40), (1, 43)], 9),
  ([(1, 4), (1, 5), (1, 7), (1, 8), (1, 9), (1, 10), (1, 11), (1, 13), (1, 18), (1, 20), (1, 21), (1, 22), (1, 23), (1, 27), (1, 29), (1, 30), (1, 31), (1, 32), (1, 38), (1, 40), (1, 41), (1, 43), (1, 44), (1, 46), (1, 47)], 10),
  ([(1, 1), (1, 2), (1, 4), (1, 5), (1, 7), (1, 10), (1, 16), (1, 17), (1, 18), (1, 19), (1, 22), (1, 24), (1, 27), (1, 28), (1, 35), (1, 38), (1, 46)], 11),
  ([(1, 0), (1, 1), (1, 2), (1, 4), (1, 5), (1, 7), (1, 9), (1, 11), (1, 13), (1, 15), (1, 17), (1, 18), (1, 19), (1, 20), (1, 22), (1, 26), (1, 27), (1, 28), (1, 29), (1, 33), (1, 35), (1, 36), (1, 38), (1, 39), (1, 40), (1, 43), (1, 46)], 12),
  ([(1, 0), (1, 2), (1, 3), (1, 4), (1, 8), (1, 10), (1, 11), (1, 13), (1, 14), (1, 15), (1, 16), (1, 17), (1, 19), (1, 20), (1, 21), (1, 24), (1, 26), (1, 27), (1, 29), (1, 30), (1, 31), (1, 33), (1, 35), (1, 38), (1, 39), (1, 41), (1, 44)], 13),
  ([(1, 0), (1, 2), (1, 3), (1, 4), (1, 7), (1, 8), (1, 10), (1, 11), (1, 13), (1, 14), (1, 15), (1, 16), (1, 19), (1, 20), (1, 21), (1, 24), (1, 26), (1, 29), (1, 30), (1, 33), (1, 35), (1, 38), (1, 39), (1, 41), (1, 44)], 14),
  ([(1, 0), (1, 2), (1, 3), (1, 4), (1, 6), (1, 8), (1, 9), (1, 10), (1, 11), (1, 12), (1, 14), (1, 15), (1, 17), (1, 25), (1, 26), (1, 27), (1, 29), (1, 31), (1, 32), (1, 34), (1, 35), (1, 37), (1, 38), (1, 41), (1, 43), (1, 44), (1, 46)], 15),
  ([(1, 1), (1, 2), (1, 4), (1, 5), (1, 6), (1, 8), (1, 9), (1, 13), (1, 15), (1, 16), (1, 17), (1, 20), (1, 22), (1, 23), (1, 25), (1, 28), (1, 29), (1, 31), (1, 33), (1, 34), (1, 35), (1, 38), (1, 39), (1, 40), (1, 41), (1, 44), (1, 45), (1, 46), (1, 47)], 16),
  ([(1, 0), (1, 1), (1, 2), (1, 3), (1, 4), (1, 7), (1, 9), (1, 10), (1, 12), (1, 25), (1, 26), (1, 29), (1, 30), (1, 31), (1, 33), (1, 36), (1, 38), (1, 39), (1, 40), (1, 41), (1, 43), (1, 44), (1, 45)], 17),
  ([(1, 1), (1, 2), (1, 3), (1, 4), (1, 7), (1, 8), (1, 11), (1, 13), (1, 15), (1, 16), (1, 20), (1, 24), (1, 25), (1, 29), (1, 30), (1, 31), (1, 37), (1, 38), (1, 41), (1, 44), (1, 46)], 18),
  ([(1, 0), (1, 1), (1, 2), (1, 6), (1, 7), (1, 9), (1, 10), (1, 11), (1, 12), (1, 17), (1, 18), (1, 19), (1, 20), (1, 22), (1, 23), (1, 27), (1, 28), (1, 29), (1, 30), (1, 32), (1, 34), (1, 35), (1, 36), (1, 38), (1, 39), (1, 42), (1, 46)], 19),
  ([(1, 1), (1, 2), (1, 8), (1, 9), (1, 11), (1, 13), (1, 16), (1, 17), (1, 20), (1, 23), (1, 24), (1, 25), (1, 28), (1, 29), (1, 30), (1, 31), (1, 32), (1, 33), (1, 35), (1, 37), (1, 40), (1, 41), (1, 44), (1, 46), (1, 47)], 20),
  ([(1, 0), (1, 2), (1, 6), (1, 8), (1, 9), (1, 11), (1, 15), (1, 16), (1, 17), (1, 19), (1, 20), (1, 21), (1, 22), (1, 34), (1, 36), (1, 37), (1, 38), (1, 39), (1, 40), (1, 41), (1, 42), (1, 43), (1, 44), (1, 45), (1, 47)], 21),
  ([(1, 0), (1, 6), (1, 8), (1, 10), (1, 11), (1, 16), (1, 17), (1, 18), (1, 23), (1, 26), (1, 32), (1, 36), (1, 37), (1, 39), (1, 41), (1, 43), (1, 45), (1, 46), (1, 47)], 22),
  ([(1, 0), (1, 1), (1, 14), (1, 19), (1, 21), (1, 25), (1, 26), (1, 31), (1, 33), (1, 35), (1, 37), (1, 39), (1, 46)], 23),
  ([(1, 1), (1, 2), (1, 3), (1, 4), (1, 6), (1, 7), (1, 8), (1, 13), (1, 16), (1, 20), (1, 24), (1, 25), (1, 29), (1, 31), (1, 32), (1, 34), (1, 38), (1, 39), (1, 41), (1, 44), (1, 45)], 24),
  ([(1, 6), (1, 11), (1, 15), (1, 30), (1, 32), (1, 34), (1, 37), (1, 39), (1, 45)], 25),
  ([(1, 1), (1, 4), (1, 5), (1, 6), (1, 9), (1, 10), (1, 11), (1, 12), (1, 14), (1, 16), (1, 19), (1, 20), (1, 21), (1, 24), (1, 25), (1, 26), (1, 29), (1, 30), (1, 31), (1, 32), (1, 34), (1, 35), (1, 36), (1, 37), (1, 40), (1, 42), (1, 46)], 26),
  ([(1, 0), (1, 2), (1, 4), (1, 5), (1, 7), (1, 14), (1, 16), (1, 17), (1, 18), (1, 21), (1, 22), (1, 24), (1, 25), (1, 26), (1, 27), (1, 28), (1, 31), (1, 37), (1, 38), (1, 39), (1, 40)], 27),
  ([(1, 1), (1, 4), (1, 5), (1, 6), (1, 7), (1, 11), (1, 12), (1, 14), (1, 15), (1, 16), (1, 17), (1, 20), (1, 21), (1, 24), (1, 26), (1, 27), (1, 29), (1, 30), (1, 35), (1, 36), (1, 38), (1, 39), (1, 40), (1, 42), (1, 44)], 28),
  ([(1, 1), (1, 3), (1, 4), (1, 6), (1, 8), (1, 12), (1, 13), (1, 14), (1, 16), (1, 17), (1, 18), (1, 22), (1, 24), (1, 27), (1, 28), (1, 33), (1, 36), (1, 38), (1, 40), (1, 41), (1, 46)], 29),
  ([(1, 0), (1, 1), (1, 4), (1, 5), (1, 8), (1, 9), (1, 12), (1, 14), (1, 15), (1, 17), (1, 18), (1, 19), (1, 20), (1, 21), (1, 23), (1, 24), (1, 25), (1, 29), (1, 30), (1, 31), (1, 34), (1, 35), (1, 39), (1, 40), (1, 41), (1, 42), (1, 43), (1, 45), (1, 47)], 30),
  ([(1, 1), (1, 2), (1, 4), (1, 5), (1, 6), (1, 7), (1, 8), (1, 9), (1, 10), (1, 13), (1, 15), (1, 16), (1, 19), (1, 20), (1, 22), (1, 23), (1, 27), (1, 28), (1, 29), (1, 33), (1, 35), (1, 37), (1, 38), (1, 40), (1, 41), (1, 45), (1, 47)], 31),
  ([(1, 0), (1, 3), (1, 5), (1, 6), (1, 8), (1, 12), (1, 13), (1, 15), (1, 16), (1, 19), (1, 20), (1, 22), (1, 23), (1, 25), (1, 26), (1, 27), (1, 28), (1, 30), (1, 31), (1, 35), (1, 36), (1, 37), (1, 39), (1, 43), (1, 44)], 32),
  ([(1, 2), (1, 4), (1, 5), (1, 6), (1, 7), (1, 10), (1, 11), (1, 12), (1, 14), (1, 17), (1, 21), (1, 22), (1, 23), (1, 24), (1, 25), (1, 27), (1, 28), (1, 29), (1, 31), (1, 33), (1, 36), (1, 37), (1, 38), (1, 41), (1, 43)], 33),
  ([(1, 0), (1, 1), (1, 2), (1, 8), (1, 11), (1, 12), (1, 13), (1, 15), (1, 17), (1, 22), (1, 24), (1, 25), (1, 30), (1, 31), (1, 32), (1, 33), (1, 36), (1, 38), (1, 40), (1, 41), (1, 42), (1, 44), (1, 45), (1, 46), (1, 47)], 34),
  ([(1, 1), (1, 2), (1, 3), (1, 4), (1, 7), (1, 9), (1, 15), (1, 16), (1, 17), (1, 18), (1, 21), (1, 22), (1, 23), (1, 24), (1, 25), (1, 26), (1, 31), (1, 32), (1, 37), (1, 39), (1, 40), (1, 42), (1, 47)], 35),
  ([(1, 0), (1, 4), (1, 5), (1, 7), (1, 8), (1, 10), (1, 11), (1, 12), (1, 13), (1, 15), (1, 16), (1, 18), (1, 19), (1, 25), (1, 27), (1, 28), (1, 30), (1, 31), (1, 32), (1, 33), (1, 36), (1, 40), (1, 41), (1, 42), (1, 44), (1, 45), (1, 47)], 36),
  ([(1, 4), (1, 5), (1, 6), (1, 7), (1, 8), (1, 9), (1, 10), (1, 13), (1, 15), (1, 18), (1, 20), (1, 21), (1, 22), (1, 23), (1, 27), (1, 29), (1, 31), (1, 34), (1, 38), (1, 39), (1, 40), (1, 41), (1, 43), (1, 44), (1, 45), (1, 46), (1, 47)], 37),
  ([(1, 2), (1, 5), (1, 6), (1, 7), (1, 8), (1, 9), (1, 12), (1, 13), (1, 14), (1, 15), (1, 21), (1, 23), (1, 25), (1, 26), (1, 27), (1, 28), (1, 31), (1, 32), (1, 33), (1, 36), (1, 37), (1, 38), (1, 39), (1, 41), (1, 42), (1, 46), (1, 47)], 38),
  ([(1, 0), (1, 2), (1, 8), (1, 9), (1, 11), (1, 13), (1, 14), (1, 16), (1, 17), (1, 19), (1, 20), (1, 21), (1, 23), (1, 24), (1, 26), (1, 28), (1, 29), (1, 30), (1, 32), (1, 39), (1, 40), (1, 41), (1, 43), (1, 44), (1, 47)], 39),
  ([(1, 0), (1, 2), (1, 3), (1, 5), (1, 9), (1, 10), (1, 14), (1, 15), (1, 16), (1, 18), (1, 22), (1, 23), (1, 24), (1, 25), (1, 26), (1, 27), (1, 31), (1, 32), (1, 33), (1, 35), (1, 37), (1, 39), (1, 40), (1, 43), (1, 47)], 40),
  ([(1, 3), (1, 5), (1, 7), (1, 8), (1, 11), (1, 13), (1, 15), (1, 18), (1, 20), (1, 21), (1, 22), (1, 26), (1, 28), (1, 29), (1, 30), (1, 33), (1, 35), (1, 39), (1, 41), (1, 44), (1, 46)], 41),
  ([(1, 2), (1, 7), (1, 8), (1, 9), (1, 11), (1, 12), (1, 13), (1, 14), (1, 21), (1, 22), (1, 23), (1, 24), (1, 25), (1, 26), (1, 27), (1, 28), (1, 30), (1, 31), (1, 33), (1, 34), (1, 36), (1, 38), (1, 41), (1, 42), (1, 45), (1, 46), (1, 47)], 42),
  ([(1, 0), (1, 1), (1, 2), (1, 3), (1, 5), (1, 6), (1, 8), (1, 9), (1, 11), (1, 12), (1, 13), (1, 15), (1, 17), (1, 25), (1, 27), (1, 32), (1, 33), (1, 34), (1, 36), (1, 37), (1, 38), (1, 39), (1, 40), (1, 41), (1, 42), (1, 44), (1, 46)], 43),
  ([(1, 0), (1, 1), (1, 2), (1, 6), (1, 8), (1, 10), (1, 11), (1, 17), (1, 19), (1, 21), (1, 23), (1, 26), (1, 28), (1, 31), (1, 33), (1, 34), (1, 35), (1, 36), (1, 41), (1, 44), (1, 47)], 44),
  ([(1, 0), (1, 4), (1, 5), (1, 6), (1, 7), (1, 8), (1, 11), (1, 12), (1, 16), (1, 18), (1, 21), (1, 22), (1, 23), (1, 24), (1, 26), (1, 27), (1, 31), (1, 33), (1, 34), (1, 36), (1, 38), (1, 41), (1, 44), (1, 46), (1, 47)], 45),
  ([(1, 0), (1, 2), (1, 3), (1, 4), (1, 6), (1, 7), (1, 8), (1, 13), (1, 14), (1, 16), (1, 20), (1, 21), (1, 24), (1, 26), (1, 29), (1, 32), (1, 33), (1, 34), (1, 35), (1, 37), (1, 38), (1, 41), (1, 44), (1, 45), (1, 46)], 46),
  ([(1, 2), (1, 4), (1, 5), (1, 6), (1, 7), (1, 9), (1, 10), (1, 12), (1, 13), (1, 14), (1, 17), (1, 18), (1, 20), (1, 21), (1, 22), (1, 25), (1, 27), (1, 28), (1, 30), (1, 31), (1, 32), (1, 33), (1, 34), (1, 37), (1, 38), (1, 39), (1, 43)], 47)]

end Verif
